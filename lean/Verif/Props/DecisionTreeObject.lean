import Verif.Lemmas.DecisionTreeObject
import Verif.Props.DecisionTreeMore
import Verif.Lemmas.Analytic
import Verif.Lemmas.KDBox

/-!
# Programs with a tree object (C166)
-/

set_option linter.unusedSectionVars false

namespace OpenML
open DTree Spec DTreeObject

variable {α : Type} [Field α] [LinearOrder α] [IsStrictOrderedRing α] {R : Type} [LinearOrder R]

namespace DTreeObject

/-- The labels of an object are those of all calls. -/
theorem classes_run (start : R) (imp : List α → List α → List α → Res R) (P : Params R) (cs : List (Call α (Question α)))
    (hd : FitsHaveData cs) (M : Model α) (seen : List (Seen (Answer α)))
    (h : run (classifier start imp P) (classifier start imp P).new cs = .ok (M, seen)) : IsClasses M.classes (allTargets cs) := by
  induction cs using List.reverseRecOn generalizing M seen with
  | nil => cases h; exact ⟨List.Pairwise.nil, fun _ => Iff.rfl⟩
  | append_singleton cs c ih =>
    obtain ⟨o1, seen1, s, h1, h2⟩ := run_snoc h
    have ihc := ih (fun X y hm => hd X y (by simp [hm])) o1 seen1 h1
    cases c with
    | fit X y =>
      rw [step, Res.bind_eq_ok] at h2
      obtain ⟨⟨o3, e⟩, h2, h3⟩ := h2
      cases h3
      simp only [classifier, read_all y _ (hd X y (by simp)).1, Res.bind_ok, Res.bind_eq_ok] at h2
      obtain ⟨r, -, h2⟩ := h2
      cases h2
      refine ⟨Impurity.keys_sorted _, fun k => ?_⟩
      rw [Impurity.mem_keys, List.mem_append, ihc.2]
      simp [allTargets]
    | ask q =>
      have ho : M = o1 := by
        rw [step] at h2
        split at h2 <;> cases h2 <;> rfl
      rw [ho]
      have : allTargets (cs ++ [.ask q]) = allTargets cs := by simp [allTargets]
      rw [this]
      exact ihc

/-- The tree of labels that both objects have. -/
theorem grow_labels (K : List α) (hK : K ≠ []) (start : R) (imp : List α → List α → List α → Res R) (P : Params R) (fuel : Nat)
    (X : DMat α) (y : List α) (depth : Nat) :
    grow (DTree.classifier K start imp) P fuel X y depth = (do
      let r ← grow (keeping (DTree.classifier [] start imp)) P fuel X y depth
      .ok (mapValue (fun L : List α => K.map L.count) r.1, r.2)) :=
  grow_map (DTree.classifier K start imp) _ (fun y => if_neg hK) P fuel X y depth

/-- The state of a classifier at the end of a program. -/
theorem classifier_state (start : R) (imp : List α → List α → List α → Res R) (P : Params R) (cs : List (Call α (Question α)))
    (hd : FitsHaveData cs) (M : Model α) (seen : List (Seen (Answer α)))
    (h : run (classifier start imp P) (classifier start imp P).new cs = .ok (M, seen)) :
    (M.root = .null ∧ ∀ c ∈ cs, ¬ FitsTree c) ∨
    ∃ X y e T, LastTreeData cs X y ∧ y ≠ [] ∧ y.length = X.nrows ∧ (∀ a ∈ y, a ∈ allTargets cs) ∧
      grow (keeping (DTree.classifier [] start imp)) P (P.maxDepth + 2) X y 0 = .ok (T, e) ∧
      M.root = mapValue (fun L : List α => M.classes.map L.count) T := by
  rcases run_last _ cs M seen h with ⟨rfl, h2⟩ | ⟨X, y, b, o1, seen1, e, h1, h2, h3, h4, h5⟩
  · exact .inl ⟨rfl, h2⟩
  · have hXy : Call.fit X y ∈ cs := by
      obtain ⟨b, a, rfl, -⟩ := h1
      simp
    obtain ⟨hl, hne⟩ := hd X y hXy
    simp only [classifier, read_all y _ hl, Res.bind_ok, Res.bind_eq_ok] at h5
    obtain ⟨⟨T', e'⟩, h5, h6⟩ := h5
    cases h6
    rw [grow_labels _ (fun hk => ?_), Res.bind_eq_ok] at h5
    · obtain ⟨⟨T, e2⟩, h5, h6⟩ := h5
      cases h6
      exact .inr ⟨X, y, _, T, h1, hne, hl, fun a ha => by rw [h2]; simp [ha], h5, rfl⟩
    · obtain ⟨a, ha⟩ := List.exists_mem_of_ne_nil y hne
      have : a ∈ Impurity.keys (o1.classes ++ y) := by rw [Impurity.mem_keys]; simp [ha]
      rw [hk] at this
      simp at this

/-- A new object after one call. -/
theorem fresh_fit (start : R) (imp : List α → List α → List α → Res R) (P : Params R) (X : DMat α) (y : List α) (hne : y ≠ [])
    (hl : y.length = X.nrows) (T : Tree α (List α)) (e : Option Exn)
    (h : grow (keeping (DTree.classifier [] start imp)) P (P.maxDepth + 2) X y 0 = .ok (T, e)) :
    run (classifier start imp P) (classifier start imp P).new [.fit X y] =
      .ok (⟨Impurity.keys y, mapValue (fun L : List α => (Impurity.keys y).map L.count) T⟩,
        [e.elim .fitted .caught]) := by
  have hk : Impurity.keys y ≠ [] := by
    intro hk
    obtain ⟨a, ha⟩ := List.exists_mem_of_ne_nil y hne
    have : a ∈ Impurity.keys y := by rw [Impurity.mem_keys]; exact ha
    rw [hk] at this
    simp at this
  have hf : (classifier start imp P).fit (classifier start imp P).new X y =
      .ok (⟨Impurity.keys y, mapValue (fun L : List α => (Impurity.keys y).map L.count) T⟩, e) := by
    simp only [classifier, read_all y _ hl, Res.bind_ok, List.nil_append]
    rw [grow_labels _ hk, h]
    rfl
  rw [run, step, hf]
  cases e <;> rfl

theorem probs_same (K K' xs ys L : List α) (hK : IsClasses K xs) (hK' : IsClasses K' ys) (hs : ∀ a ∈ ys, a ∈ xs)
    (hL : ∀ a ∈ L, a ∈ ys) : SameProbabilities K K' (probs (K.map L.count)) (probs (K'.map L.count)) := by
  have s1 : (K.map L.count).sum = L.length :=
    DTree.sum_counts K L (hK.1.imp fun h => h.ne) fun a ha => (hK.2 a).mpr (hs a (hL a ha))
  have s2 : (K'.map L.count).sum = L.length :=
    DTree.sum_counts K' L (hK'.1.imp fun h => h.ne) fun a ha => (hK'.2 a).mpr (hL a ha)
  unfold probs
  rw [s1, s2]
  refine ⟨by simp, by simp, ?_⟩
  intro j k hj
  constructor
  · intro j' hj'
    rw [List.map_map, List.map_map, List.getElem?_map, List.getElem?_map, hj, hj']
  · intro hk
    have hc : L.count k = 0 := List.count_eq_zero.mpr fun h => hk ((hK'.2 k).mpr (hL k h))
    rw [List.map_map, List.getElem?_map, hj]
    by_cases h0 : L.length = 0
    · right
      simp [h0]
    · left
      simp only [Option.map_some, Function.comp_apply, if_neg h0, hc, Nat.cast_zero, zero_div]

/-- The number in each place of a row without NaN. -/
theorem numbers_probs (K L : List α) (hs : (K.map L.count).sum = L.length) (v : List α)
    (h : numbers (probs (K.map L.count)) = .ok v) : (K = [] ∨ L ≠ []) ∧ v = K.map fun k => (L.count k : α) / (L.length : α) := by
  unfold probs at h
  rw [hs] at h
  by_cases h0 : L.length = 0
  · simp only [if_pos h0] at h
    cases K with
    | nil => cases h; simp
    | cons k K =>
      rw [((DTree.numbers_cases _).1 (by simp))] at h
      cases h
  · refine ⟨.inr (by rintro rfl; simp at h0), ?_⟩
    simp only [if_neg h0] at h
    unfold numbers at h
    have := Analytic.mapRes_eq_map (fun o : Option α => match o with | none => Res.ub | some a => .ok a) (fun o => o.getD 0)
      (List.map (fun c : Nat => some ((c : α) / (L.length : α))) (K.map L.count)) (by
        intro o ho
        obtain ⟨c, -, rfl⟩ := List.mem_map.mp ho
        rfl)
    rw [← Res.ok.inj (this.symm.trans h), List.map_map, List.map_map]
    rfl

theorem pairwise_index {K : List α} (hK : K.Pairwise (· < ·)) {i j : Nat} {a b : α} (hi : K[i]? = some a) (hj : K[j]? = some b)
    (h : i ≤ j) : a ≤ b := by
  obtain ⟨hi', rfl⟩ := List.getElem?_eq_some_iff.mp hi
  obtain ⟨hj', rfl⟩ := List.getElem?_eq_some_iff.mp hj
  rcases Nat.eq_or_lt_of_le h with rfl | h
  · exact le_rfl
  · exact (List.pairwise_iff_getElem.mp hK i j hi' hj' h).le

/-- The first most frequent label is the same in both lists. -/
theorem firstMax_same (K K' xs ys L : List α) (hK : IsClasses K xs) (hK' : IsClasses K' ys) (hs : ∀ a ∈ ys, a ∈ xs)
    (hL : ∀ a ∈ L, a ∈ ys) (hne : L ≠ []) (p p' : Nat)
    (hp : IsFirstMax (K.map fun k => (L.count k : α) / (L.length : α)) p)
    (hp' : IsFirstMax (K'.map fun k => (L.count k : α) / (L.length : α)) p') : ∃ k, K[p]? = some k ∧ K'[p']? = some k := by
  obtain ⟨v, hv, hmax⟩ := hp
  obtain ⟨v', hv', hmax'⟩ := hp'
  rw [List.getElem?_map, Option.map_eq_some_iff] at hv hv'
  obtain ⟨k, hk, rfl⟩ := hv
  obtain ⟨k', hk', rfl⟩ := hv'
  have hlen : (0 : α) < (L.length : α) := by exact_mod_cast List.length_pos_iff.mpr hne
  have hk'K : k' ∈ K := (hK.2 k').mpr (hs k' ((hK'.2 k').mp (List.mem_of_getElem? hk')))
  obtain ⟨j, hj⟩ := List.mem_iff_getElem?.mp hk'K
  have h1 := hmax j _ (by rw [List.getElem?_map, hj]; rfl)
  have hkL : k ∈ L := by
    by_contra hn
    obtain ⟨a, ha⟩ := List.exists_mem_of_ne_nil L hne
    obtain ⟨i, hi⟩ := List.mem_iff_getElem?.mp ((hK.2 a).mpr (hs a (hL a ha)))
    have h2 := (hmax i _ (by rw [List.getElem?_map, hi]; rfl)).1
    rw [List.count_eq_zero.mpr hn, Nat.cast_zero, zero_div] at h2
    have h3 : (0 : α) < (L.count a : α) := by exact_mod_cast List.count_pos_iff.mpr ha
    exact absurd h2 (not_le.mpr (div_pos h3 hlen))
  obtain ⟨j', hj'⟩ := List.mem_iff_getElem?.mp ((hK'.2 k).mpr (hL k hkL))
  have h2 := hmax' j' _ (by rw [List.getElem?_map, hj']; rfl)
  have heq := le_antisymm h1.1 h2.1
  have h3 : k ≤ k' := pairwise_index hK.1 hk hj (h1.2 heq)
  have h4 : k' ≤ k := pairwise_index hK'.1 hk' hj' (h2.2 heq.symm)
  exact ⟨k, hk, by rw [hk', le_antisymm h3 h4]⟩

theorem numbers_ok (K L : List α) (hs : (K.map L.count).sum = L.length) (hne : L ≠ []) :
    numbers (probs (K.map L.count)) = .ok (K.map fun k => (L.count k : α) / (L.length : α)) := by
  obtain ⟨v, hv⟩ := (DTree.numbers_cases (probs (α := α) (K.map L.count))).2 (by
    unfold probs
    rw [hs]
    intro h
    obtain ⟨c, -, hc⟩ := List.mem_map.mp h
    rw [if_neg (fun h => hne (List.length_eq_zero_iff.mp h))] at hc
    cases hc)
  rw [hv, (numbers_probs K L hs v hv).2]

/-- The prediction for each sample. -/
theorem predict_eq_ok (M : Model α) (Z : List (List α)) (ps : List Nat) :
    predict M Z = .ok ps ↔
    List.Forall₂ (fun x p => ∃ c v, route x M.root = .ok c ∧ numbers (probs (α := α) c) = .ok v ∧ maxCoeffIdx v = .ok p) Z ps := by
  unfold predict
  simp only [Res.bind_eq_ok, MatOps.argmax, if_true]
  constructor
  · rintro ⟨O, h1, rows, h2, h3⟩
    rw [DTree.predictProb_eq_ok] at h1
    rw [mapRes_ok_iff] at h2 h3
    induction h1 generalizing rows ps with
    | nil =>
      cases h2
      cases h3
      exact .nil
    | cons hc _ ih =>
      cases h2 with
      | cons hn h2 =>
        cases h3 with
        | cons hm h3 =>
          obtain ⟨c, hc, rfl⟩ := hc
          exact .cons ⟨c, _, hc, hn, hm⟩ (ih _ _ h2 h3)
  · intro h
    induction h with
    | nil => exact ⟨[], rfl, [], rfl, rfl⟩
    | cons hx _ ih =>
      obtain ⟨c, v, h1, h2, h3⟩ := hx
      obtain ⟨O, h4, rows, h5, h6⟩ := ih
      refine ⟨probs c :: O, ?_, v :: rows, ?_, ?_⟩
      · rw [DTree.predictProb_eq_ok] at h4 ⊢
        exact .cons ⟨c, h1, rfl⟩ h4
      · rw [mapRes_ok_iff] at h5 ⊢
        exact .cons h2 h5
      · rw [mapRes_ok_iff] at h6 ⊢
        exact .cons h3 h6

theorem classifier_ask_prob {start : R} {imp : List α → List α → List α → Res R} {P : Params R} {M : Model α} {Z : List (List α)}
    {o : Model α} {s : Seen (Answer α)} (h : step (classifier start imp P) M (.ask (.prob Z)) = .ok (o, s)) (hr : M.root ≠ .null)
    (he : ∀ e, predictProb M Z ≠ .throw e) : ∃ rows, predictProb M Z = .ok rows ∧ s = .answer (.probs rows) := by
  rw [step] at h
  simp only [classifier] at h
  cases hM : M.root with
  | null => exact absurd hM hr
  | node v sp l r =>
    simp only [hM] at h
    cases hp : predictProb M Z with
    | ok rows => rw [hp] at h; cases h; exact ⟨rows, rfl, rfl⟩
    | throw e => exact absurd hp (he e)
    | ub => rw [hp] at h; cases h
    | diverge => rw [hp] at h; cases h

theorem route_okOrUb {ν : Type} (x : List α) (T : Tree α ν) : (∃ v, route x T = .ok v) ∨ route x T = .ub := by
  induction T with
  | null => exact .inr rfl
  | node w s l r ihl ihr =>
    cases l with
    | null => exact .inl ⟨w, by cases s <;> rfl⟩
    | node v' s' l' r' =>
      cases s with
      | none => exact .inr rfl
      | some ft =>
        obtain ⟨f, t⟩ := ft
        have e1 : route x (.node w (some (f, t)) (.node v' s' l' r') r) = (do
          let a ← readAt x f
          if a ≤ t then route x (.node v' s' l' r') else route x r) := rfl
        rw [e1]
        unfold readAt
        split
        · rw [Res.bind_ok]
          split
          · exact ihl
          · exact ihr
        · exact .inr rfl

theorem mapRes_okOrUb {β γ : Type} (f : β → Res γ) (l : List β) (h : ∀ a ∈ l, (∃ b, f a = .ok b) ∨ f a = .ub) :
    (∃ bs, mapRes f l = .ok bs) ∨ mapRes f l = .ub := by
  by_cases hu : ∃ a ∈ l, f a = .ub
  · exact .inr (mapRes_ub f l h hu)
  · left
    push Not at hu
    have : ∀ a ∈ l, ∃ b, f a = .ok b := fun a ha => (h a ha).resolve_right (hu a ha)
    exact KDTree.mapRes_total l this

theorem predictProb_okOrUb (M : Model α) (Z : List (List α)) : (∃ rows, predictProb M Z = .ok rows) ∨ predictProb M Z = .ub := by
  unfold predictProb
  refine mapRes_okOrUb _ _ fun x _ => ?_
  rcases route_okOrUb x M.root with ⟨v, hv⟩ | hv
  · exact .inl ⟨_, by rw [hv]; rfl⟩
  · exact .inr (by rw [hv]; rfl)

theorem predict_okOrUb (M : Model α) (Z : List (List α)) (hK : ∀ x ∈ Z, ∀ c, route x M.root = .ok c → c ≠ []) :
    (∃ ps, predict M Z = .ok ps) ∨ predict M Z = .ub := by
  unfold predict
  rcases predictProb_okOrUb M Z with ⟨rows, h⟩ | h
  · rw [h, Res.bind_ok]
    rcases mapRes_okOrUb (numbers (α := α)) rows (fun r _ => by
      by_cases hn : none ∈ r
      · exact .inr ((DTree.numbers_cases r).1 hn)
      · exact .inl ((DTree.numbers_cases r).2 hn)) with ⟨vs, h2⟩ | h2
    · rw [h2, Res.bind_ok]
      simp only [MatOps.argmax, if_true]
      refine mapRes_okOrUb _ _ fun v hv => ?_
      have hvne : v ≠ [] := by
        rw [mapRes_ok_iff] at h2
        rw [DTree.predictProb_eq_ok] at h
        obtain ⟨r, hr, hrv⟩ : ∃ r ∈ rows, numbers r = .ok v := by
          clear h
          induction h2 with
          | nil => simp at hv
          | cons h _ ih =>
            rcases List.mem_cons.mp hv with rfl | hv
            · exact ⟨_, by simp, h⟩
            · obtain ⟨r, hr, h⟩ := ih hv
              exact ⟨r, by simp [hr], h⟩
        obtain ⟨x, hx, c, hc, rfl⟩ : ∃ x ∈ Z, ∃ c, route x M.root = .ok c ∧ r = probs c := by
          clear h2 hv hK
          induction h with
          | nil => simp at hr
          | cons h _ ih =>
            rcases List.mem_cons.mp hr with rfl | hr
            · exact ⟨_, by simp, h⟩
            · obtain ⟨r, hr, h⟩ := ih hr
              exact ⟨r, by simp [hr], h⟩
        rintro rfl
        unfold numbers at hrv
        rw [mapRes_ok_iff] at hrv
        have := hrv.length_eq
        simp [probs] at this
        exact hK x hx c hc this
      obtain ⟨p, hp, -⟩ := maxCoeffIdx_spec v hvne
      exact .inl ⟨p, hp⟩
    · exact .inr (by rw [h2]; rfl)
  · exact .inr (by rw [h]; rfl)

theorem mapValue_ne_null {ν μ : Type} {T : Tree α ν} (g : ν → μ) (h : T ≠ .null) : mapValue g T ≠ .null := by
  cases T with
  | null => exact absurd rfl h
  | node v s l r => simp [mapValue]

theorem ask_prob_ok {start : R} {imp : List α → List α → List α → Res R} {P : Params R} {M : Model α} {Z : List (List α)}
    {rows : List (List (Option α))} (hr : M.root ≠ .null) (h : predictProb M Z = .ok rows) :
    step (classifier start imp P) M (.ask (.prob Z)) = .ok (M, .answer (.probs rows)) := by
  rw [step]
  simp only [classifier]
  cases hM : M.root with
  | null => exact absurd hM hr
  | node v sp l r => simp only [h, Res.bind_ok]

theorem ask_predict_ok {start : R} {imp : List α → List α → List α → Res R} {P : Params R} {M : Model α} {Z : List (List α)}
    {ps : List Nat} (hr : M.root ≠ .null) (h : predict M Z = .ok ps) :
    step (classifier start imp P) M (.ask (.predict Z)) = .ok (M, .answer (.positions ps)) := by
  rw [step]
  simp only [classifier]
  cases hM : M.root with
  | null => exact absurd hM hr
  | node v sp l r => simp only [h, Res.bind_ok]

/-- A new object asked after one call. -/
theorem fresh_ask (start : R) (imp : List α → List α → List α → Res R) (P : Params R) (X : DMat α) (y : List α) (hne : y ≠ [])
    (hl : y.length = X.nrows) (T : Tree α (List α)) (e : Option Exn)
    (h : grow (keeping (DTree.classifier [] start imp)) P (P.maxDepth + 2) X y 0 = .ok (T, e)) (q : Question α) (a : Answer α)
    (ha : step (classifier start imp P) ⟨Impurity.keys y, mapValue (fun L : List α => (Impurity.keys y).map L.count) T⟩ (.ask q) =
      .ok (⟨Impurity.keys y, mapValue (fun L : List α => (Impurity.keys y).map L.count) T⟩, .answer a)) :
    program (classifier start imp P) [.fit X y, .ask q] = .ok [e.elim .fitted .caught, .answer a] := by
  rw [show ([.fit X y, .ask q] : List (Call α (Question α))) = [.fit X y] ++ [.ask q] from rfl, program_snoc]
  exact ⟨_, _, _, _, fresh_fit start imp P X y hne hl T e h, ha, rfl⟩

theorem grow_ne_null {ν : Type} (A : Algo α ν R) (P : Params R) (fuel : Nat) (X : DMat α) (y : List α) (d : Nat) (T : Tree α ν)
    (e : Option Exn) (h : grow A P fuel X y d = .ok (T, e)) : T ≠ .null := by
  obtain ⟨v, sp, l, r, hT, -⟩ := grow_node A P fuel X y d T e h
  rw [hT]
  simp

end DTreeObject

/-- C166: the probabilities that a classifier reports in any program are those a new object would report that has only been given the
data of the last call of `fit`, successful or not, with a column for every label of any call and 0 for the labels not among those
data. -/
theorem C166_probabilities (start : R) (imp : List α → List α → List α → Res R) (P : Params R) (cs : List (Call α (Question α)))
    (hd : FitsHaveData cs) (Z : List (List α)) (seen : List (Seen (Answer α)))
    (h : program (classifier start imp P) (cs ++ [.ask (.prob Z)]) = .ok seen) :
    ∃ X y s rows rows', LastTreeData cs X y ∧
      program (classifier start imp P) [.fit X y, .ask (.prob Z)] = .ok [s, .answer (.probs rows')] ∧
      seen.getLast? = some (.answer (.probs rows)) ∧
      ∀ K K', IsClasses K (allTargets cs) → IsClasses K' y → List.Forall₂ (SameProbabilities K K') rows rows' := by
  obtain ⟨M, seen1, o2, s, hr, hs, rfl⟩ := program_snoc.mp h
  have hM := classes_run start imp P cs hd M seen1 hr
  rcases classifier_state start imp P cs hd M seen1 hr with ⟨h1, -⟩ | ⟨X, y, e, T, h1, h2, h3, h4, h5, h6⟩
  · rw [step] at hs
    simp only [DTreeObject.classifier, h1] at hs
    cases hs
  · obtain ⟨rows, hrows, rfl⟩ := classifier_ask_prob hs (by rw [h6]; exact mapValue_ne_null _ (grow_ne_null _ P _ X y 0 T e h5)) (fun e he => by
      rcases predictProb_okOrUb M Z with ⟨r, h⟩ | h <;> rw [h] at he <;> cases he)
    obtain ⟨K', hKdef⟩ : ∃ K', K' = Impurity.keys y := ⟨_, rfl⟩
    have hK' : IsClasses K' y := by rw [hKdef]; exact keys_isClasses y
    rw [DTree.predictProb_eq_ok] at hrows
    obtain ⟨rows', h7, h8⟩ : ∃ rows', predictProb (⟨K', mapValue (fun L : List α => K'.map L.count) T⟩ : Model α) Z = .ok rows' ∧
        List.Forall₂ (SameProbabilities M.classes K') rows rows' := by
      clear hs h hd hr
      induction hrows with
      | nil => exact ⟨[], rfl, .nil⟩
      | @cons x row Z rows hx _ ih =>
        obtain ⟨rows', h7, h8⟩ := ih
        obtain ⟨c, hc, rfl⟩ := hx
        rw [h6, DTreeObject.route_map, Res.bind_eq_ok] at hc
        obtain ⟨L, hL, hc⟩ := hc
        cases hc
        refine ⟨probs (K'.map L.count) :: rows', ?_, .cons ?_ h8⟩
        · rw [DTree.predictProb_eq_ok] at h7 ⊢
          exact .cons ⟨_, by simp only [DTreeObject.route_map, hL]; rfl, rfl⟩ h7
        · exact probs_same _ _ _ _ L hM hK' h4 (grow_values _ P _ X y 0 T e h5 L (route_mem x T L hL))
    refine ⟨X, y, e.elim .fitted .caught, rows, rows', h1, ?_, by simp, ?_⟩
    · rw [hKdef] at h7
      exact fresh_ask start imp P X y h2 h3 T e h5 _ _ (ask_prob_ok (mapValue_ne_null _ (grow_ne_null _ P _ X y 0 T e h5)) h7)
    · intro K K'' hK hK''
      rw [isClasses_eq hK hM, isClasses_eq hK'' hK']
      exact h8

/-- An object fitted with the labels 10, 20 after the labels 0, 5, 30: the probabilities of the labels 0, 5, 10, 20, 30. -/
example : program (DTreeObject.classifier (1 / 1000) giniScore demoParams)
      ([.fit ⟨2, [[0, 0], [1, 1], [2, 2]]⟩ [0, 5, 30], .fit DTree.demo [10, 10, 20, 20]] ++ [.ask (.prob [[1, 5], [4, 4]])]) =
      .ok [.fitted, .fitted, .answer (.probs [[some 0, some 0, some 1, some 0, some 0], [some 0, some 0, some 0, some 1, some 0]])] ∧
    program (DTreeObject.classifier (1 / 1000) giniScore demoParams) [.fit DTree.demo [10, 10, 20, 20], .ask (.prob [[1, 5], [4, 4]])] =
      .ok [.fitted, .answer (.probs [[some (1 : ℚ), some 0], [some 0, some 1]])] := by
  decide +kernel

/-- C166: likewise a predicted label is that of a new object which has only been given the data of the last call of `fit`. The call
returns its position among all labels of all calls, for the new object among the labels of these data. -/
theorem C166_predict (start : R) (imp : List α → List α → List α → Res R) (P : Params R) (cs : List (Call α (Question α)))
    (hd : FitsHaveData cs) (Z : List (List α)) (seen : List (Seen (Answer α)))
    (h : program (classifier start imp P) (cs ++ [.ask (.predict Z)]) = .ok seen) :
    ∃ X y s ps ps', LastTreeData cs X y ∧
      program (classifier start imp P) [.fit X y, .ask (.predict Z)] = .ok [s, .answer (.positions ps')] ∧
      seen.getLast? = some (.answer (.positions ps)) ∧
      ∀ K K', IsClasses K (allTargets cs) → IsClasses K' y →
        List.Forall₂ (fun p p' : Nat => ∃ k, K[p]? = some k ∧ K'[p']? = some k) ps ps' := by
  obtain ⟨M, seen1, o2, s, hr, hs, rfl⟩ := program_snoc.mp h
  have hM := classes_run start imp P cs hd M seen1 hr
  rcases classifier_state start imp P cs hd M seen1 hr with ⟨h1, -⟩ | ⟨X, y, e, T, h1, h2, h3, h4, h5, h6⟩
  · rw [step] at hs
    simp only [DTreeObject.classifier, h1] at hs
    cases hs
  · have hnull : M.root ≠ .null := by rw [h6]; exact mapValue_ne_null _ (grow_ne_null _ P _ X y 0 T e h5)
    have hMne : M.classes ≠ [] := by
      intro hK
      obtain ⟨a, ha⟩ := List.exists_mem_of_ne_nil y h2
      have := (hM.2 a).mpr (h4 a ha)
      rw [hK] at this
      simp at this
    obtain ⟨ps, hps, rfl⟩ : ∃ ps, predict M Z = .ok ps ∧ s = .answer (.positions ps) := by
      rcases predict_okOrUb M Z (fun x _ c hc => by
        rw [h6, DTreeObject.route_map, Res.bind_eq_ok] at hc
        obtain ⟨L, -, hc⟩ := hc
        cases hc
        simpa using hMne) with ⟨ps, hp⟩ | hp
      · rw [ask_predict_ok hnull hp] at hs
        cases hs
        exact ⟨ps, hp, rfl⟩
      · rw [step] at hs
        simp only [DTreeObject.classifier] at hs
        cases hM : M.root with
        | null => exact absurd hM hnull
        | node v sp l r =>
          simp only [hM, hp] at hs
          cases hs
    obtain ⟨K', hKdef⟩ : ∃ K', K' = Impurity.keys y := ⟨_, rfl⟩
    have hK' : IsClasses K' y := by rw [hKdef]; exact keys_isClasses y
    rw [predict_eq_ok] at hps
    obtain ⟨ps', h7, h8⟩ : ∃ ps', predict (⟨K', mapValue (fun L : List α => K'.map L.count) T⟩ : Model α) Z = .ok ps' ∧
        List.Forall₂ (fun p p' : Nat => ∃ k, M.classes[p]? = some k ∧ K'[p']? = some k) ps ps' := by
      clear hs h hd hr
      induction hps with
      | nil => exact ⟨[], rfl, .nil⟩
      | @cons x p Z ps hx _ ih =>
        obtain ⟨ps', h7, h8⟩ := ih
        obtain ⟨c, v, hc, hv, hp⟩ := hx
        rw [h6, DTreeObject.route_map, Res.bind_eq_ok] at hc
        obtain ⟨L, hL, hc⟩ := hc
        cases hc
        have hLy := grow_values _ P _ X y 0 T e h5 L (route_mem x T L hL)
        have s1 : (M.classes.map L.count).sum = L.length :=
          DTree.sum_counts _ L (hM.1.imp fun h => h.ne) fun a ha => (hM.2 a).mpr (h4 a (hLy a ha))
        have s2 : (K'.map L.count).sum = L.length :=
          DTree.sum_counts K' L (hK'.1.imp fun h => h.ne) fun a ha => (hK'.2 a).mpr (hLy a ha)
        obtain ⟨h9, rfl⟩ := numbers_probs M.classes L s1 v hv
        have hLne : L ≠ [] := h9.resolve_left hMne
        have hKne : K' ≠ [] := by
          obtain ⟨a, ha⟩ := List.exists_mem_of_ne_nil L hLne
          exact List.ne_nil_of_mem ((hK'.2 a).mpr (hLy a ha))
        obtain ⟨q, hq, hqmax⟩ := maxCoeffIdx_spec (M.classes.map fun k => (L.count k : α) / (L.length : α)) (by simpa using hMne)
        rw [hp] at hq
        cases hq
        obtain ⟨p', hp', hpmax⟩ := maxCoeffIdx_spec (K'.map fun k => (L.count k : α) / (L.length : α)) (by simpa using hKne)
        refine ⟨p' :: ps', ?_, .cons ?_ h8⟩
        · rw [predict_eq_ok] at h7 ⊢
          exact .cons ⟨K'.map L.count, _, by simp only [DTreeObject.route_map, hL]; rfl, numbers_ok K' L s2 hLne, hp'⟩ h7
        · exact firstMax_same M.classes K' _ y L hM hK' h4 hLy hLne p p' hqmax hpmax
    refine ⟨X, y, e.elim .fitted .caught, ps, ps', h1, ?_, by simp, ?_⟩
    · rw [hKdef] at h7
      exact fresh_ask start imp P X y h2 h3 T e h5 _ _ (ask_predict_ok (mapValue_ne_null _ (grow_ne_null _ P _ X y 0 T e h5)) h7)
    · intro K K'' hK hK''
      rw [isClasses_eq hK hM, isClasses_eq hK'' hK']
      exact h8

/-- The same objects: the answers are 2, 3 for the labels 10, 20, and 0, 1 for a new object. -/
example : program (DTreeObject.classifier (1 / 1000) giniScore demoParams)
      ([.fit ⟨2, [[0, 0], [1, 1], [2, 2]]⟩ [0, 5, 30], .fit DTree.demo [10, 10, 20, 20]] ++ [.ask (.predict [[1, 5], [4, 4]])]) =
      .ok [.fitted, .fitted, .answer (.positions [2, 3])] ∧
    program (DTreeObject.classifier (1 / 1000) giniScore demoParams)
      [.fit DTree.demo [10, 10, 20, (20 : ℚ)], .ask (.predict [[1, 5], [4, 4]])] = .ok [.fitted, .answer (.positions [0, 1])] := by
  decide +kernel

/-- C166: whether `fit` returns or throws does not depend on the earlier calls either. -/
theorem C166_outcome (start : R) (imp : List α → List α → List α → Res R) (P : Params R) (cs : List (Call α (Question α)))
    (hd : FitsHaveData cs) (X : DMat α) (y : List α) (hl : y.length = X.nrows) (hne : y ≠ []) (seen : List (Seen (Answer α)))
    (h : program (classifier start imp P) (cs ++ [.fit X y]) = .ok seen) :
    ∃ s, seen.getLast? = some s ∧ program (classifier start imp P) [.fit X y] = .ok [s] := by
  obtain ⟨M, seen1, o2, s, hr, hs, rfl⟩ := program_snoc.mp h
  refine ⟨s, by simp, ?_⟩
  rw [step, Res.bind_eq_ok] at hs
  obtain ⟨⟨o3, e⟩, h2, h3⟩ := hs
  cases h3
  simp only [DTreeObject.classifier, read_all y _ hl, Res.bind_ok, Res.bind_eq_ok] at h2
  obtain ⟨⟨T', e'⟩, h2, h3⟩ := h2
  cases h3
  rw [grow_labels _ (fun hk => ?_), Res.bind_eq_ok] at h2
  · obtain ⟨⟨T, e2⟩, h5, h6⟩ := h2
    cases h6
    rw [program, fresh_fit start imp P X y hne hl T _ h5]
    cases e2 <;> rfl
  · obtain ⟨a, ha⟩ := List.exists_mem_of_ne_nil y hne
    have : a ∈ Impurity.keys (M.classes ++ y) := by rw [Impurity.mem_keys]; simp [ha]
    rw [hk] at this
    simp at this

example : program (DTreeObject.classifier (1 / 1000 : ℚ) unknownScore demoParams) ([.fit ⟨1, [[7]]⟩ [3]] ++ [.fit DTree.demo [10, 10, 20, 20]]) =
      .ok [.fitted, .caught .invalidArgument] ∧
    program (DTreeObject.classifier (1 / 1000 : ℚ) unknownScore demoParams) [.fit DTree.demo [10, 10, 20, (20 : ℚ)]] =
      .ok [.caught .invalidArgument] := by
  decide +kernel

/-- C166: with an unknown criterion `fit` may throw, but the object answers afterwards: for every sample the frequencies of the labels
of the last call of `fit`. -/
theorem C166_unknown (start : R) (P : Params R) (cs : List (Call α (Question α))) (hd : FitsHaveData cs) (Z : List (List α))
    (seen : List (Seen (Answer α))) (h : program (classifier start unknownScore P) (cs ++ [.ask (.prob Z)]) = .ok seen) :
    ∃ X y rows, LastTreeData cs X y ∧ seen.getLast? = some (.answer (.probs rows)) ∧
      ∀ K, IsClasses K (allTargets cs) → rows = Z.map fun _ => K.map fun k => some ((y.count k : α) / (y.length : α)) := by
  obtain ⟨M, seen1, o2, s, hr, hs, rfl⟩ := program_snoc.mp h
  have hM := classes_run start unknownScore P cs hd M seen1 hr
  rcases classifier_state start unknownScore P cs hd M seen1 hr with ⟨h1, -⟩ | ⟨X, y, e, T, h1, h2, h3, h4, h5, h6⟩
  · rw [step] at hs
    simp only [DTreeObject.classifier, h1] at hs
    cases hs
  · obtain ⟨v, hv, rfl⟩ := grow_unknown _ rfl P _ X y 0 T e h5
    cases hv
    have hp : predictProb M Z = .ok (Z.map fun _ => probs (M.classes.map y.count)) := by
      unfold predictProb
      refine Analytic.mapRes_eq_map _ _ _ fun x _ => ?_
      rw [h6]
      rfl
    rw [ask_prob_ok (by rw [h6]; exact mapValue_ne_null _ (by simp)) hp] at hs
    cases hs
    refine ⟨X, y, _, h1, List.getLast?_concat, fun K hK => ?_⟩
    rw [isClasses_eq hK hM]
    refine List.map_congr_left fun _ _ => ?_
    have s1 : (M.classes.map y.count).sum = y.length :=
      DTree.sum_counts _ y (hM.1.imp fun h => h.ne) fun a ha => (hM.2 a).mpr (h4 a ha)
    unfold probs
    rw [s1, List.map_map]
    refine List.map_congr_left fun k _ => ?_
    simp [h2]

/-- The last call throws, and its labels 10, 10, 10, 20 are 3/4 and 1/4 of all. -/
example : program (DTreeObject.classifier (1 / 1000 : ℚ) unknownScore demoParams)
    ([.fit ⟨1, [[7]]⟩ [3], .fit DTree.demo [10, 10, 10, 20]] ++ [.ask (.prob [[1, 5], [4, 4]])]) =
    .ok [.fitted, .caught .invalidArgument, .answer (.probs [[some 0, some (3 / 4 : ℚ), some (1 / 4)], [some 0, some (3 / 4), some (1 / 4)]])] := by
  decide +kernel

/-- C166: a question before the first call of `fit` reads through a null pointer. -/
theorem C166_unfitted (start : R) (imp : List α → List α → List α → Res R) (P : Params R) (cs : List (Call α (Question α)))
    (hn : ∀ c ∈ cs, ¬ FitsTree c) (hne : cs ≠ []) : program (classifier start imp P) cs = .ub := by
  cases cs with
  | nil => exact absurd rfl hne
  | cons c cs =>
    cases c with
    | fit X y => exact absurd ⟨X, y, rfl⟩ (hn _ (by simp))
    | ask q => rfl

example : ∀ c ∈ ([.ask (.predict [[1, 2]]), .ask (.prob [])] : List (Call ℚ (Question ℚ))), ¬ FitsTree c := by
  rintro c hc ⟨X, y, rfl⟩
  simp at hc

/-- C166: the answers of a regressor in any program are those of a new object that has only been given the data of the last call of
`fit`, successful or not. -/
theorem C166_regressor (minStdev start : α) (imp : List α → List α → List α → Res α) (P : Params α)
    (cs : List (Call α (List (List α)))) (Z : List (List α)) (hZ : Z ≠ []) (seen : List (Seen (List α)))
    (h : program (regressor minStdev start imp P) (cs ++ [.ask Z]) = .ok seen) :
    ∃ X y s a, LastTreeData cs X y ∧ seen.getLast? = some a ∧
      program (regressor minStdev start imp P) [.fit X y, .ask Z] = .ok [s, a] := by
  obtain ⟨T, seen1, o2, s, hr, hs, rfl⟩ := program_snoc.mp h
  rcases run_last _ cs T seen1 hr with ⟨rfl, h2⟩ | ⟨X, y, b, o1, seen1, e, h1, h2, h3, h4, h5⟩
  · exfalso
    cases Z with
    | nil => exact hZ rfl
    | cons x Z => cases hs
  · refine ⟨X, y, e.elim .fitted .caught, s, h1, by simp, ?_⟩
    rw [show ([.fit X y, .ask Z] : List (Call α (List (List α)))) = [.fit X y] ++ [.ask Z] from rfl, program_snoc]
    refine ⟨T, [e.elim .fitted .caught], o2, s, ?_, hs, rfl⟩
    have h6 : (regressor minStdev start imp P).fit (regressor minStdev start imp P).new X y = .ok (T, e) := h5
    rw [run, step, h6]
    cases e <;> rfl

/-- The tree of the last call. -/
example : program (DTreeObject.regressor (1 / 10) (1 / 1000) squaredScore demoParams)
      ([.fit ⟨1, [[7], [8]]⟩ [3, 100], .fit DTree.demo [10, 10, 20, 20]] ++ [.ask [[1, 5], [4, 4]]]) =
      .ok [.fitted, .fitted, .answer [10, (20 : ℚ)]] ∧
    program (DTreeObject.regressor (1 / 10) (1 / 1000) squaredScore demoParams) [.fit DTree.demo [10, 10, 20, 20], .ask [[1, 5], [4, 4]]] =
      .ok [.fitted, .answer [10, (20 : ℚ)]] := by
  decide +kernel

/-- C166: with an unknown criterion a regressor answers with the mean of the last targets, whether `fit` threw or not. -/
theorem C166_regressor_unknown (minStdev start : α) (P : Params α) (cs : List (Call α (List (List α)))) (Z : List (List α))
    (hZ : Z ≠ []) (seen : List (Seen (List α)))
    (h : program (regressor minStdev start unknownScore P) (cs ++ [.ask Z]) = .ok seen) :
    ∃ X y, LastTreeData cs X y ∧ y ≠ [] ∧ seen.getLast? = some (.answer (Z.map fun _ => y.sum / (y.length : α))) := by
  obtain ⟨T, seen1, o2, s, hr, hs, rfl⟩ := program_snoc.mp h
  rcases run_last _ cs T seen1 hr with ⟨rfl, h2⟩ | ⟨X, y, b, o1, seen1, e, h1, h2, h3, h4, h5⟩
  · exfalso
    cases Z with
    | nil => exact hZ rfl
    | cons x Z => cases hs
  · obtain ⟨v, hv, rfl⟩ := grow_unknown _ rfl P _ X y 0 T e h5
    obtain ⟨hy, rfl⟩ := (DTree.meanTarget_eq y v).mp hv
    have hp : predictRegressor (.node (y.sum / (y.length : α)) none .null .null) Z = .ok (Z.map fun _ => y.sum / (y.length : α)) := by
      unfold predictRegressor
      exact Analytic.mapRes_eq_map _ _ _ fun x _ => rfl
    have hs' : (.ok (DTree.Tree.node (y.sum / (y.length : α)) none .null .null, .answer (Z.map fun _ => y.sum / (y.length : α))) :
        Res (Tree α α × Seen (List α))) = .ok (o2, s) := by
      rw [← hs, step]
      simp only [DTreeObject.regressor, hp]
    cases hs'
    exact ⟨X, y, h1, hy, by simp⟩

example : program (DTreeObject.regressor (1 / 10) (1 / 1000 : ℚ) unknownScore demoParams)
    ([.fit ⟨1, [[7]]⟩ [3], .fit DTree.demo [10, 10, 20, 20]] ++ [.ask [[1, 5], [4, 4]]]) =
    .ok [.fitted, .caught .invalidArgument, .answer [15, 15]] := by
  decide +kernel

end OpenML
