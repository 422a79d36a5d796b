import Verif.Model.Apriori
import Verif.Spec.Itemsets
import Verif.Spec.Order
import Verif.Lemmas.Combinations
import Verif.Lemmas.HashTree
import Verif.Lemmas.TransactionEncoder
import Verif.Props.Sort2D
import Verif.Lemmas.VecOps
import Mathlib.Data.List.Nodup
import Mathlib.Data.List.Perm.Subperm

namespace OpenML.Apriori
open HashTree TransactionEncoder Combinations Sort2D Spec

/-! ## Counting subsets -/

theorem count_map_cons (b : Nat) (a : Nat) (s : List Nat) (l : List (List Nat)) :
    (l.map (b :: ·)).count (a :: s) = if a = b then l.count s else 0 := by
  induction l with
  | nil => simp
  | cons x l ih =>
    rw [List.map_cons, List.count_cons, ih]
    by_cases h : a = b
    · subst h
      rw [if_pos rfl, if_pos rfl, List.count_cons]
      by_cases hx : x = s <;> simp [hx]
    · have h' : b ≠ a := fun e => h e.symm
      simp [h, h']

theorem count_map_cons_nil (b : Nat) (l : List (List Nat)) : (l.map (b :: ·)).count [] = 0 := by
  rw [List.count_eq_zero]; simp

theorem count_masks (t s : List Nat) : ((masks t.length s.length).map (select · t)).count s = embeddings s t := by
  induction t generalizing s with
  | nil =>
    cases s with
    | nil => simp [masks, select, embeddings]
    | cons a s => simp [masks, embeddings]
  | cons b t ih =>
    cases s with
    | nil =>
      have := ih []
      simp only [List.length_nil] at this
      simp only [List.length_cons, List.length_nil, masks, List.map_map]
      have h : ((fun m => select m (b :: t)) ∘ fun m => false :: m) = fun m => select m t := by
        funext m; simp [select]
      rw [h, this]
      cases t <;> rfl
    | cons a s =>
      simp only [List.length_cons, masks, List.map_append, List.map_map, List.count_append]
      have h1 : ((fun m => select m (b :: t)) ∘ fun m => false :: m) = fun m => select m t := by
        funext m; simp [select]
      have h2 : ((fun m => select m (b :: t)) ∘ fun m => true :: m) = (b :: ·) ∘ fun m => select m t := by
        funext m; simp [select]
      have := ih (a :: s)
      simp only [List.length_cons] at this
      rw [h1, h2, this, ← List.map_map, count_map_cons, ih s]
      rfl

theorem combinations_ok (t : List Nat) (k : Nat) :
    ∃ r, combinations t k = .ok r ∧ (∀ c ∈ r, c.length = k) ∧ ∀ s, s.length = k → r.count s = embeddings s t := by
  refine ⟨_, combinations_eq t k, fun c hc => ((mem_combinations (combinations_eq t k)).mp hc).2, ?_⟩
  rintro s rfl
  exact count_masks t s

theorem generateKSubsets_ok (X : List (List Nat)) (k : Nat) :
    ∃ S, generateKSubsets X k = .ok S ∧ (∀ s ∈ S, s.length = k) ∧
      ∀ s, s.length = k → S.count s = occurrences X s := by
  induction X with
  | nil => exact ⟨[], rfl, by simp, by simp [occurrences]⟩
  | cons t X ih =>
    obtain ⟨S, h1, h2, h4⟩ := ih
    obtain ⟨r, h5, h6, h7⟩ := combinations_ok t k
    refine ⟨r ++ S, by simp [generateKSubsets, h5, h1], ?_, ?_⟩
    · intro s hs
      rcases List.mem_append.mp hs with hs | hs
      · exact h6 s hs
      · exact h2 s hs
    · intro s hs
      rw [List.count_append, h4 s hs, h7 s hs]
      simp [occurrences]

theorem embeddings_pos {s t : List Nat} : 0 < embeddings s t ↔ s.Sublist t := by
  induction t generalizing s with
  | nil => cases s <;> simp [embeddings]
  | cons b t ih =>
    cases s with
    | nil => simp [embeddings]
    | cons a s =>
      simp only [embeddings]
      have h1 := ih (s := s)
      have h2 := ih (s := a :: s)
      by_cases h : a = b
      · subst h
        rw [if_pos rfl]
        constructor
        · intro h
          rcases Nat.eq_zero_or_pos (embeddings s t) with h0 | h0
          · exact (h2.mp (by omega)).cons _
          · exact (h1.mp h0).cons_cons _
        · intro h
          have := h1.mpr (List.cons_sublist_cons.mp h)
          omega
      · rw [if_neg h, Nat.zero_add, h2]
        constructor
        · exact fun h => h.cons _
        · intro h'
          cases h' with
          | cons _ h' => exact h'
          | cons_cons _ _ => exact absurd rfl h

theorem embeddings_nodup {s t : List Nat} (ht : t.Nodup) : embeddings s t = if s.Sublist t then 1 else 0 := by
  by_cases hs : s.Sublist t
  · rw [if_pos hs]
    have hpos := embeddings_pos.mpr hs
    have : embeddings s t ≤ 1 := by
      clear hs hpos
      induction t generalizing s with
      | nil => cases s <;> simp [embeddings]
      | cons b t ih =>
        cases s with
        | nil => simp [embeddings]
        | cons a s =>
          simp only [embeddings]
          have hb := List.nodup_cons.mp ht
          by_cases h : a = b
          · subst h
            have h0 : embeddings (a :: s) t = 0 := by
              by_contra hc
              exact hb.1 ((embeddings_pos.mp (Nat.pos_of_ne_zero hc)).subset (by simp))
            rw [if_pos rfl, h0]
            exact ih hb.2
          · rw [if_neg h, Nat.zero_add]
            exact ih hb.2
    omega
  · rw [if_neg hs]
    by_contra hc
    exact hs (embeddings_pos.mp (Nat.pos_of_ne_zero hc))

theorem occurrences_nodup {X : List (List Nat)} (hX : ∀ t ∈ X, t.Nodup) (s : List Nat) :
    occurrences X s = X.countP fun t => decide (s.Sublist t) := by
  unfold occurrences
  induction X with
  | nil => rfl
  | cons t X ih =>
    rw [List.map_cons, List.sum_cons, ih fun u hu => hX u (by simp [hu]), embeddings_nodup (hX t (by simp)),
      List.countP_cons]
    by_cases h : s.Sublist t <;> simp [h]; omega

theorem occurrences_le_support {X : List (List Nat)} (hX : ∀ t ∈ X, t.Nodup) (s : List Nat) :
    occurrences X s ≤ support X s := by
  rw [occurrences_nodup hX, support]
  apply List.countP_mono_left
  intro t _ h
  simp only [decide_eq_true_eq] at h ⊢
  exact fun v hv => h.subset hv

theorem occurrences_increasing {X : List (List Nat)} (hX : ∀ t ∈ X, t.Pairwise (· < ·)) {s : List Nat}
    (hs : s.Pairwise (· < ·)) : occurrences X s = support X s := by
  rw [occurrences_nodup fun t ht => (hX t ht).imp fun h e => by omega, support]
  apply List.countP_congr
  intro t ht
  simp only [decide_eq_true_eq]
  constructor
  · exact fun h v hv => h.subset hv
  · intro h
    exact List.sublist_of_subperm_of_pairwise (r := (· < ·))
      (List.subperm_of_subset (hs.imp fun h e => by omega) h) hs (hX t ht)

/-! ## Candidates -/

theorem isPrefix_eq : ∀ (n : Nat) (l1 l2 : List Nat), l1.length = n + 1 → l2.length = n + 1 →
    isPrefix l1 l2 = .ok (decide (l1.dropLast = l2.dropLast)) := by
  intro n
  induction n with
  | zero =>
    intro l1 l2 h1 h2
    match l1, l2, h1, h2 with
    | [a], [b], _, _ => simp [isPrefix]
  | succ n ih =>
    intro l1 l2 h1 h2
    match l1, l2, h1, h2 with
    | a :: b :: r, c :: d :: s, h1, h2 =>
      unfold isPrefix
      by_cases hac : a = c
      · subst hac
        rw [if_neg (by simp), ih (b :: r) (d :: s) (by simpa using h1) (by simpa using h2)]
        simp
      · rw [if_pos hac]
        simp [hac]

theorem joinWith_eq {n : Nat} {p : List Nat} (hp : p.length = n + 1) (qs : List (List Nat))
    (hq : ∀ q ∈ qs, q.length = n + 1) :
    joinWith p qs = .ok ((qs.takeWhile fun q => decide (p.dropLast = q.dropLast)).map fun q => p ++ [q.getLastD 0]) := by
  induction qs with
  | nil => rfl
  | cons q qs ih =>
    have hq1 := hq q (by simp)
    unfold joinWith
    rw [isPrefix_eq n p q hp hq1]
    simp only [Res.bind_ok]
    by_cases h : p.dropLast = q.dropLast
    · rw [if_pos (by simpa using h)]
      have hne : q ≠ [] := by intro h; rw [h] at hq1; simp at hq1
      rw [List.getLast?_eq_some_getLast hne, ih fun x hx => hq x (by simp [hx])]
      simp only [Res.bind_ok]
      rw [List.takeWhile_cons, if_pos (by simpa using h)]
      simp [List.getLastD_eq_getLast?, List.getLast?_eq_some_getLast hne]
    · rw [if_neg (by simpa using h), List.takeWhile_cons, if_neg (by simpa using h)]
      rfl

/-- All candidates built from a list of equally long itemsets. -/
def candList : List (List Nat) → List (List Nat)
  | [] => []
  | p :: rest => ((rest.takeWhile fun q => decide (p.dropLast = q.dropLast)).map fun q => p ++ [q.getLastD 0]) ++
      candList rest

theorem candidates_eq {n : Nat} (prev : List (List Nat)) (h : ∀ p ∈ prev, p.length = n + 1) :
    candidates prev = .ok (candList prev) := by
  induction prev with
  | nil => rfl
  | cons p rest ih =>
    unfold candidates
    rw [joinWith_eq (h p (by simp)) rest fun q hq => h q (by simp [hq]), ih fun q hq => h q (by simp [hq])]
    rfl

theorem mem_takeWhile_true {f : List Nat → Bool} {l : List (List Nat)} {q : List Nat} (h : q ∈ l.takeWhile f) :
    f q = true := by
  induction l with
  | nil => simp at h
  | cons a l ih =>
    rw [List.takeWhile_cons] at h
    by_cases ha : f a
    · rw [if_pos ha] at h
      rcases List.mem_cons.mp h with rfl | h
      · exact ha
      · exact ih h
    · rw [if_neg ha] at h
      simp at h

/-- Where a candidate comes from. -/
theorem mem_candList {prev : List (List Nat)} {c : List Nat} (hc : c ∈ candList prev) :
    ∃ p q, [p, q].Sublist prev ∧ p.dropLast = q.dropLast ∧ c = p ++ [q.getLastD 0] := by
  induction prev with
  | nil => simp [candList] at hc
  | cons p rest ih =>
    unfold candList at hc
    rcases List.mem_append.mp hc with hc | hc
    · obtain ⟨q, hq, rfl⟩ := List.mem_map.mp hc
      have h1 := mem_takeWhile_true hq
      exact ⟨p, q, List.Sublist.cons_cons _ (List.singleton_sublist.mpr ((List.takeWhile_sublist _).subset hq)),
        by simpa using h1, rfl⟩
    · obtain ⟨p', q, h1, h2⟩ := ih hc
      exact ⟨p', q, h1.cons _, h2⟩

theorem candList_length {n : Nat} {prev : List (List Nat)} (h : ∀ p ∈ prev, p.length = n) :
    ∀ c ∈ candList prev, c.length = n + 1 := by
  intro c hc
  obtain ⟨p, q, h1, _, rfl⟩ := mem_candList hc
  simp [h p (h1.subset (by simp))]

/-- A candidate is generated when everything between its two parents shares their prefix. -/
theorem candList_of_run {A M R : List (List Nat)} {p q : List Nat} (hM : ∀ m ∈ M, p.dropLast = m.dropLast)
    (hq : p.dropLast = q.dropLast) : p ++ [q.getLastD 0] ∈ candList (A ++ p :: (M ++ q :: R)) := by
  induction A with
  | nil =>
    simp only [List.nil_append, candList]
    apply List.mem_append_left
    apply List.mem_map.mpr
    refine ⟨q, ?_, rfl⟩
    rw [List.takeWhile_append_of_pos (by intro a ha; simpa using hM a ha), List.takeWhile_cons, if_pos (by simpa using hq)]
    simp
  | cons a A ih =>
    simp only [List.cons_append, candList]
    exact List.mem_append_right _ ih

theorem sortrows_rect (x : List (List Nat)) (m : Nat) (hm : 0 < m) (hne : x ≠ [])
    (hx : ∀ r ∈ x, r.length = m) (hn : x.Nodup) :
    ∃ y, sortrows x false = .ok y ∧ y.Perm x ∧ y.Pairwise (DictBefore false) :=
  (C05_sortrows_rectangular x m hm hne hx false).1 hn

/-! ## One level -/

theorem buildAll_eq_run (t : Tree) (cs : List (List Nat)) : buildAll t cs = t.run (cs.map CountOp.register) := by
  induction cs generalizing t with
  | nil => rfl
  | cons c cs ih =>
    simp only [buildAll, List.map_cons, Tree.run, Tree.step]
    cases t.buildTree c <;> simp [ih]

theorem addAll_eq_run (t : Tree) (cs : List (List Nat)) : addAll t cs = t.run (cs.map CountOp.occur) := by
  induction cs generalizing t with
  | nil => rfl
  | cons c cs ih =>
    simp only [addAll, List.map_cons, Tree.run, Tree.step]
    cases t.addSupport c <;> simp [ih]

theorem run_append (t : Tree) (a b : List CountOp) : t.run (a ++ b) = (t.run a >>= fun t' => t'.run b) := by
  induction a generalizing t with
  | nil => rfl
  | cons op a ih =>
    simp only [List.cons_append, Tree.run]
    cases t.step op <;> simp [ih]

theorem counterAfter_register_occur (cs S : List (List Nat)) (s : List Nat) :
    counterAfter (cs.map CountOp.register ++ S.map CountOp.occur) s =
      if s ∈ cs then some (S.count s) else none := by
  have hocc : (S.map CountOp.occur).count (CountOp.occur s) = S.count s := by
    rw [List.count_eq_countP, List.countP_map, List.count_eq_countP]
    congr 1
    funext x
    by_cases h : x = s <;> simp [h]
  have hno : (S.map CountOp.occur).dropWhile (fun op => decide (op ≠ CountOp.register s)) = [] := by
    generalize S = S'
    induction S' with
    | nil => rfl
    | cons a S' ih => simpa using ih
  have hcount : ∀ cs : List (List Nat), (cs.map CountOp.register).count (CountOp.occur s) = 0 := by
    intro cs
    rw [List.count_eq_zero]
    intro h
    obtain ⟨y, _, hy⟩ := List.mem_map.mp h
    cases hy
  induction cs with
  | nil =>
    unfold counterAfter
    simp only [List.map_nil, List.nil_append]
    rw [hno]; simp
  | cons c cs ih =>
    unfold counterAfter at ih ⊢
    by_cases hc : c = s
    · subst hc
      simp [hocc, hcount]
    · have hne : CountOp.register c ≠ CountOp.register s := fun e => hc (by cases e; rfl)
      simp only [List.map_cons, List.cons_append, List.dropWhile_cons, hne, ne_eq, not_false_eq_true, decide_true, if_true]
      rw [ih]
      simp [Ne.symm hc]

theorem addAll_empty (ml mc : Nat) (S : List (List Nat)) : addAll (Tree.new ml mc) S = .ok (Tree.new ml mc) := by
  induction S with
  | nil => rfl
  | cons s S ih =>
    have : (Tree.new ml mc).addSupport s = .ok (Tree.new ml mc) := by
      simp [Tree.addSupport, Tree.new, Node.empty, Node.addSupport, bump, find]
    simp [addAll, this, ih]

/-- One level of the search never fails; it reports the candidates whose number of subset occurrences reaches the
threshold, each once. -/
theorem nextLevel_spec (X : List (List Nat)) (supp n : Nat) (prev : List (List Nat))
    (h : ∀ p ∈ prev, p.length = n + 1) :
    ∃ curr, nextLevel X supp prev (n + 2) = .ok curr ∧
      (curr.map Prod.fst).Nodup ∧
      ∀ s c, (s, c) ∈ curr ↔ s ∈ candList prev ∧ c = occurrences X s ∧ supp ≤ c := by
  obtain ⟨S, hS, hlen, hcnt⟩ := generateKSubsets_ok X (n + 2)
  by_cases hne : candList prev = []
  · refine ⟨[], ?_, by simp, by simp [hne]⟩
    unfold nextLevel
    rw [candidates_eq prev h]
    simp only [Res.bind_ok, hne, List.length_nil, buildAll, hS, addAll_empty]
    simp [Tree.computeFrequency, Tree.new, Node.empty, dfs, entries_leaf]
  · have hpos : 0 < (candList prev).length := List.length_pos_iff.mpr hne
    have hops : ∀ op ∈ (candList prev).map CountOp.register ++ S.map CountOp.occur, op.itemset.length = n + 2 := by
      intro op hop
      rcases List.mem_append.mp hop with hop | hop
      · obtain ⟨c, hc, rfl⟩ := List.mem_map.mp hop
        exact candList_length h c hc
      · obtain ⟨s, hs, rfl⟩ := List.mem_map.mp hop
        exact hlen s hs
    obtain ⟨t, h1, _, _, h4, h5, h6⟩ := run_spec (L := n + 2) _ (Tree.new (candList prev).length (candList prev).length)
      hpos WF_empty hops
    obtain ⟨hn, _⟩ := entries_wf (n + 2) [] t.root h5
    have hcoll : (t.computeFrequency supp).2 = t.root.entries.filter (fun e => decide (supp ≤ e.2)) := by
      simp [Tree.computeFrequency, h4, Tree.new, dfs]
    rw [run_append] at h1
    rw [Res.bind_eq_ok] at h1
    obtain ⟨t0, h7, h8⟩ := h1
    refine ⟨(t.computeFrequency supp).2, ?_, ?_, ?_⟩
    · unfold nextLevel
      rw [candidates_eq prev h]
      simp only [Res.bind_ok]
      rw [buildAll_eq_run, h7]
      simp only [Res.bind_ok, hS]
      rw [addAll_eq_run, h8]
      rfl
    · rw [hcoll]
      exact hn.sublist (List.filter_sublist.map Prod.fst)
    · intro s c
      rw [hcoll, find_filter_nodup hn, h6, foldl_stepCounter]
      simp only [Tree.new, Node.empty, entries_leaf, find]
      rw [counterAfter_register_occur]
      by_cases hs : s ∈ candList prev
      · rw [if_pos hs, hcnt s (candList_length h s hs)]
        simp only [Option.some.injEq, hs, true_and]
        constructor
        · rintro ⟨h1, h2⟩; exact ⟨h1.symm, h2⟩
        · rintro ⟨h1, h2⟩; exact ⟨h1.symm, h2⟩
      · simp [hs]

/-! ## First level -/

theorem firstOccurrences_concat (l : List Nat) (v : Nat) :
    firstOccurrences (l ++ [v]) = if v ∈ l then firstOccurrences l else firstOccurrences l ++ [v] := by
  have h1 : ((List.range l.length).filter fun i => decide (IsFirst (l ++ [v]) i)) =
      (List.range l.length).filter fun i => decide (IsFirst l i) := by
    apply List.filter_congr
    intro i hi
    have hi := List.mem_range.mp hi
    rw [decide_eq_decide]
    unfold IsFirst
    constructor
    · intro h j hj
      have := h j hj
      rwa [List.getElem?_append_left (by omega), List.getElem?_append_left hi] at this
    · intro h j hj
      rw [List.getElem?_append_left (by omega), List.getElem?_append_left hi]
      exact h j hj
  have h2 : IsFirst (l ++ [v]) l.length ↔ v ∉ l := by
    unfold IsFirst
    constructor
    · intro h hv
      obtain ⟨j, hj, hjv⟩ := List.mem_iff_getElem.mp hv
      refine h j hj ?_
      rw [List.getElem?_append_left hj, List.getElem?_append_right (Nat.le_refl _)]
      simp [hjv, hj]
    · intro h j hj he
      rw [List.getElem?_append_left hj, List.getElem?_append_right (Nat.le_refl _)] at he
      simp at he
      exact h (List.mem_iff_getElem?.mpr ⟨j, he⟩)
  have h3 : ∀ is : List Nat, (∀ i ∈ is, i < l.length) → is.filterMap ((l ++ [v])[·]?) = is.filterMap (l[·]?) := by
    intro is his
    apply List.filterMap_congr
    intro i hi
    rw [List.getElem?_append_left (his i hi)]
  unfold firstOccurrences
  rw [List.length_append, List.length_singleton, List.range_succ, List.filter_append, h1, List.filterMap_append,
    h3 _ fun i hi => List.mem_range.mp (List.mem_filter.mp hi).1]
  by_cases hv : v ∈ l
  · rw [if_pos hv, List.filter_cons, if_neg (by rw [decide_eq_true_eq, h2]; simpa using hv)]
    simp
  · rw [if_neg hv, List.filter_cons, if_pos (by rw [decide_eq_true_eq, h2]; exact hv)]
    simp

theorem mem_firstOccurrences {l : List Nat} {v : Nat} : v ∈ firstOccurrences l ↔ v ∈ l := by
  induction l using List.reverseRecOn with
  | nil => simp [firstOccurrences]
  | append_singleton l a ih =>
    rw [firstOccurrences_concat]
    by_cases h : a ∈ l
    · rw [if_pos h, ih, List.mem_append, List.mem_singleton]
      constructor
      · exact Or.inl
      · rintro (h' | rfl)
        · exact h'
        · exact h
    · rw [if_neg h, List.mem_append, List.mem_append, ih]

theorem nodup_firstOccurrences (l : List Nat) : (firstOccurrences l).Nodup := by
  induction l using List.reverseRecOn with
  | nil => simp [firstOccurrences]
  | append_singleton l a ih =>
    rw [firstOccurrences_concat]
    by_cases h : a ∈ l
    · rw [if_pos h]; exact ih
    · rw [if_neg h, List.nodup_append]
      refine ⟨ih, by simp, ?_⟩
      intro x hx y hy hxy
      simp at hy
      subst hy hxy
      exact h (mem_firstOccurrences.mp hx)

theorem recordsOrder_eq (X : List (List Nat)) : recordsOrder X = firstOccurrences X.flatten := by
  have inner : ∀ (t l : List Nat), t.foldl (fun acc v => if v ∈ acc then acc else acc ++ [v]) (firstOccurrences l) =
      firstOccurrences (l ++ t) := by
    intro t
    induction t with
    | nil => intro l; simp
    | cons a t ih =>
      intro l
      have h : (if a ∈ firstOccurrences l then firstOccurrences l else firstOccurrences l ++ [a]) =
          firstOccurrences (l ++ [a]) := by
        rw [firstOccurrences_concat]
        simp only [mem_firstOccurrences]
      rw [List.foldl_cons, h, ih (l ++ [a])]
      simp
  have outer : ∀ (X : List (List Nat)) (l : List Nat),
      X.foldl (fun acc t => t.foldl (fun acc v => if v ∈ acc then acc else acc ++ [v]) acc) (firstOccurrences l) =
      firstOccurrences (l ++ X.flatten) := by
    intro X
    induction X with
    | nil => intro l; simp
    | cons t X ih =>
      intro l
      rw [List.foldl_cons, inner, ih]
      simp
  have := outer X []
  simpa [recordsOrder, firstOccurrences] using this

theorem recordsOrder_nodup (X : List (List Nat)) : (recordsOrder X).Nodup := by
  rw [recordsOrder_eq]; exact nodup_firstOccurrences _

theorem mem_recordsOrder {X : List (List Nat)} {v : Nat} : v ∈ recordsOrder X ↔ ∃ t ∈ X, v ∈ t := by
  rw [recordsOrder_eq, mem_firstOccurrences, List.mem_flatten]

theorem recordCount_eq (X : List (List Nat)) (v : Nat) : recordCount X v = support X [v] := by
  rw [recordCount, count_stored_values]
  simp [support]

theorem recordCount_pos {X : List (List Nat)} {v : Nat} : 0 < recordCount X v ↔ ∃ t ∈ X, v ∈ t := by
  rw [recordCount_eq, support, List.countP_pos_iff]
  simp

theorem mem_levelOne {X : List (List Nat)} {supp : Nat} {s : List Nat} {c : Nat} :
    (s, c) ∈ levelOne X supp ↔ ∃ v, s = [v] ∧ (∃ t ∈ X, v ∈ t) ∧ c = support X [v] ∧ supp ≤ c := by
  simp only [levelOne, List.mem_map, List.mem_filter, mem_recordsOrder, keptRecord, Bool.and_eq_true,
    decide_eq_true_eq, recordCount_pos, Prod.mk.injEq]
  constructor
  · rintro ⟨v, ⟨h1, _, h3⟩, rfl, rfl⟩
    exact ⟨v, rfl, h1, recordCount_eq X v, h3⟩
  · rintro ⟨v, rfl, h1, rfl, h3⟩
    exact ⟨v, ⟨h1, h1, by rw [recordCount_eq]; exact h3⟩, rfl, recordCount_eq X v⟩

theorem levelOne_nodup (X : List (List Nat)) (supp : Nat) : ((levelOne X supp).map Prod.fst).Nodup := by
  unfold levelOne
  rw [List.map_map]
  refine List.Nodup.map ?_ ((recordsOrder_nodup X).filter _)
  intro a b h
  simpa using h

/-- The pruned record table is empty iff no item is frequent. -/
theorem noRecords_iff {X : List (List Nat)} {supp : Nat} :
    (∀ v ∈ (fitTransform X).stored.map Prod.snd, keptRecord X supp v = false) ↔ levelOne X supp = [] := by
  have hmem : ∀ v, v ∈ (fitTransform X).stored.map Prod.snd ↔ 0 < recordCount X v := by
    intro v; rw [recordCount, List.count_pos_iff]
  rw [List.eq_nil_iff_forall_not_mem]
  constructor
  · rintro h ⟨s, c⟩ hsc
    obtain ⟨v, rfl, h1, rfl, h3⟩ := mem_levelOne.mp hsc
    have hp := recordCount_pos.mpr h1
    have := h v ((hmem v).mpr hp)
    simp only [keptRecord, Bool.and_eq_false_iff, decide_eq_false_iff_not] at this
    rw [recordCount_eq] at this hp
    omega
  · intro h v hv
    have hp := (hmem v).mp hv
    by_contra hc
    simp only [keptRecord, Bool.not_eq_false, Bool.and_eq_true, decide_eq_true_eq] at hc
    refine h ([v], support X [v]) (mem_levelOne.mpr ⟨v, rfl, recordCount_pos.mp hp, rfl, ?_⟩)
    rw [← recordCount_eq]; exact hc.2

theorem levelOne_fst (X : List (List Nat)) (supp : Nat) : (levelOne X supp).map Prod.fst =
    ((firstOccurrences X.flatten).filter fun v => decide (supp ≤ support X [v])).map fun v => [v] := by
  unfold levelOne
  rw [List.map_map, recordsOrder_eq]
  have : (firstOccurrences X.flatten).filter (keptRecord X supp) =
      (firstOccurrences X.flatten).filter fun v => decide (supp ≤ support X [v]) := by
    apply List.filter_congr
    intro v hv
    have hp := recordCount_pos.mpr (List.mem_flatten.mp (mem_firstOccurrences.mp hv))
    simp [keptRecord, hp, recordCount_eq] 
    rw [recordCount_eq] at hp
    exact fun _ => hp
  rw [this]
  rfl

/-! ## Levels -/

theorem dict_cons {a b : Nat} {u v : List Nat} :
    DictBefore false (a :: u) (b :: v) ↔ a < b ∨ (a = b ∧ DictBefore false u v) := by
  constructor
  · rintro ⟨p, x, y, s, t, h1, h2, h3⟩
    cases p with
    | nil =>
      simp only [List.nil_append, List.cons.injEq] at h1 h2
      obtain ⟨rfl, rfl⟩ := h1
      obtain ⟨rfl, rfl⟩ := h2
      exact Or.inl (by simpa [Ahead] using h3)
    | cons c p =>
      simp only [List.cons_append, List.cons.injEq] at h1 h2
      obtain ⟨rfl, rfl⟩ := h1
      obtain ⟨rfl, rfl⟩ := h2
      exact Or.inr ⟨rfl, p, x, y, s, t, rfl, rfl, h3⟩
  · rintro (h | ⟨rfl, p, x, y, s, t, rfl, rfl, h3⟩)
    · exact ⟨[], a, b, u, v, rfl, rfl, by simpa [Ahead] using h⟩
    · exact ⟨a :: p, x, y, s, t, rfl, rfl, h3⟩

theorem dict_nil_left {v : List Nat} : ¬ DictBefore false [] v := by
  rintro ⟨p, x, y, s, t, h1, _⟩
  simp at h1

theorem dict_snoc {P : List Nat} {x y : Nat} : DictBefore false (P ++ [x]) (P ++ [y]) ↔ x < y := by
  induction P with
  | nil =>
    rw [List.nil_append, List.nil_append, dict_cons]
    simp [dict_nil_left]
  | cons a P ih =>
    rw [List.cons_append, List.cons_append, dict_cons, ih]
    simp

theorem dict_between {P m : List Nat} {x y : Nat} (hm : m.length = P.length + 1)
    (h1 : DictBefore false (P ++ [x]) m) (h2 : DictBefore false m (P ++ [y])) : m.dropLast = P := by
  induction P generalizing m with
  | nil =>
    match m, hm with
    | [z], _ => rfl
  | cons a P ih =>
    match m, hm with
    | b :: c :: m, hm =>
      rw [List.cons_append, dict_cons] at h1 h2
      have : a = b := by
        rcases h1 with h1 | h1 <;> rcases h2 with h2 | h2 <;> omega
      subst this
      have h1 := h1.resolve_left (Nat.lt_irrefl _)
      have h2 := h2.resolve_left (Nat.lt_irrefl _)
      rw [List.dropLast_cons_of_ne_nil (by simp), ih (by simpa using hm) h1.2 h2.2]

theorem before_split {L : List (List Nat)} {p q : List Nat} (h : Before L p q) :
    ∃ A M R, L = A ++ p :: (M ++ q :: R) := by
  unfold Before at h
  induction L with
  | nil => simp at h
  | cons a L ih =>
    cases h with
    | cons _ h =>
      obtain ⟨A, M, R, rfl⟩ := ih h
      exact ⟨a :: A, M, R, rfl⟩
    | cons_cons _ h =>
      obtain ⟨M, R, rfl⟩ := List.append_of_mem (List.singleton_sublist.mp h)
      exact ⟨[], M, R, rfl⟩

theorem mem_candList_iff {k : Nat} {L : List (List Nat)} (hk : 1 ≤ k) (hlen : ∀ p ∈ L, p.length = k)
    (hs : 2 ≤ k → L.Pairwise (DictBefore false)) {s : List Nat} :
    s ∈ candList L ↔ ∃ P x y, s = P ++ [x, y] ∧ Before L (P ++ [x]) (P ++ [y]) := by
  constructor
  · intro h
    obtain ⟨p, q, h1, h2, rfl⟩ := mem_candList h
    have hp := hlen p (h1.subset (by simp))
    have hq := hlen q (h1.subset (by simp))
    have hpn : p ≠ [] := by intro e; rw [e] at hp; simp at hp; omega
    have hqn : q ≠ [] := by intro e; rw [e] at hq; simp at hq; omega
    refine ⟨p.dropLast, p.getLast hpn, q.getLast hqn, ?_, ?_⟩
    · rw [List.getLastD_eq_getLast?, List.getLast?_eq_some_getLast hqn]
      conv_lhs => rw [← List.dropLast_append_getLast hpn]
      simp
    · rw [List.dropLast_append_getLast hpn, h2, List.dropLast_append_getLast hqn]
      exact h1
  · rintro ⟨P, x, y, rfl, h⟩
    obtain ⟨A, M, R, rfl⟩ := before_split h
    have hPlen := hlen (P ++ [x]) (by simp)
    simp only [List.length_append, List.length_singleton] at hPlen
    have := candList_of_run (A := A) (M := M) (R := R) (p := P ++ [x]) (q := P ++ [y]) ?_ (by simp)
    · simpa using this
    · intro m hm
      have hml := hlen m (by simp [hm])
      rw [List.dropLast_concat]
      rcases Nat.lt_or_ge k 2 with h2 | h2
      · obtain rfl : P = [] := by rw [← List.length_eq_zero_iff]; omega
        symm
        rw [← List.length_eq_zero_iff]
        simp; omega
      · have hs' := hs h2
        rw [List.pairwise_append] at hs'
        have hs2 := List.pairwise_cons.mp hs'.2.1
        have h3 := hs2.1 m (by simp [hm])
        have h4 := (List.pairwise_append.mp hs2.2).2.2 m hm (P ++ [y]) (by simp)
        exact (dict_between (by omega) h3 h4).symm

structure LevelInv (X : List (List Nat)) (k : Nat) (L : List (List Nat)) : Prop where
  pos : 1 ≤ k
  len : ∀ p ∈ L, p.length = k
  nodup : L.Nodup
  sorted : 2 ≤ k → L.Pairwise (DictBefore false)
  items : ∀ p ∈ L, p.Nodup ∧ ItemsOccur X p

theorem dict_irrefl (l : List Nat) : ¬ DictBefore false l l := fun h => dictBefore_asymm false l l h h

theorem _root_.OpenML.Spec.Level.inv {X : List (List Nat)} {thr k : Nat} {L : List (List Nat)} (h : Level X thr k L) : LevelInv X k L := by
  induction h with
  | one =>
    refine ⟨Nat.le_refl _, ?_, ?_, by omega, ?_⟩
    · intro p hp
      obtain ⟨v, _, rfl⟩ := List.mem_map.mp hp
      rfl
    · exact ((nodup_firstOccurrences _).filter _).map (fun a b h => by simpa using h)
    · intro p hp
      obtain ⟨v, hv, rfl⟩ := List.mem_map.mp hp
      have := mem_firstOccurrences.mp (List.mem_filter.mp hv).1
      refine ⟨by simp, ?_⟩
      intro w hw
      simp at hw
      subst hw
      exact List.mem_flatten.mp this
  | @next k L L' prev many sorted mem ih =>
    refine ⟨by omega, ?_, ?_, fun _ => sorted, ?_⟩
    · intro p hp
      obtain ⟨P, x, y, rfl, h1, _⟩ := (mem p).mp hp
      have := ih.len _ (h1.subset (by simp) : P ++ [x] ∈ L)
      simp at this ⊢; omega
    · refine sorted.imp ?_
      rintro a b h rfl
      exact dict_irrefl a h
    · intro p hp
      obtain ⟨P, x, y, rfl, h1, _⟩ := (mem p).mp hp
      have m1 : P ++ [x] ∈ L := h1.subset (by simp)
      have m2 : P ++ [y] ∈ L := h1.subset (by simp)
      have i1 := ih.items _ m1
      have i2 := ih.items _ m2
      have hxy : x ≠ y := by
        rintro rfl
        have := ih.nodup.sublist h1
        simp at this
      constructor
      · have n1 := i1.1
        have n2 := i2.1
        rw [List.nodup_append] at n1 n2 ⊢
        refine ⟨n1.1, by simp [hxy], ?_⟩
        intro a ha b hb
        simp at hb
        rcases hb with rfl | rfl
        · exact n1.2.2 a ha b (by simp)
        · exact n2.2.2 a ha b (by simp)
      · intro v hv
        simp at hv
        rcases hv with hv | rfl | rfl
        · exact i1.2 v (by simp [hv])
        · exact i1.2 v (by simp)
        · exact i2.2 v (by simp)

theorem LevelInv.size_le {X : List (List Nat)} {k : Nat} {L : List (List Nat)} (h : LevelInv X k L) (hne : L ≠ []) :
    k ≤ X.flatten.length := by
  obtain ⟨p, hp⟩ := List.exists_mem_of_ne_nil L hne
  have h1 := h.items p hp
  rw [← h.len p hp]
  refine (List.subperm_of_subset h1.1 ?_).length_le
  intro v hv
  exact List.mem_flatten.mpr (h1.2 v hv)

theorem sorted_unique {L L' : List (List Nat)} (h : L.Pairwise (DictBefore false)) (h' : L'.Pairwise (DictBefore false))
    (hm : ∀ s, s ∈ L ↔ s ∈ L') : L = L' := by
  have n : ∀ {L : List (List Nat)}, L.Pairwise (DictBefore false) → L.Nodup := by
    intro L hL
    refine hL.imp ?_
    rintro a b h rfl
    exact dict_irrefl a h
  refine List.Perm.eq_of_pairwise (le := DictBefore false) ?_ h h' ((List.perm_ext_iff_of_nodup (n h) (n h')).mpr hm)
  intro a b _ _ h1 h2
  exact (dictBefore_asymm false a b h1 h2).elim

theorem _root_.OpenML.Spec.Level.unique {X : List (List Nat)} {thr k : Nat} {L L' : List (List Nat)} (h : Level X thr k L)
    (h' : Level X thr k L') : L = L' := by
  induction h generalizing L' with
  | one =>
    generalize hk : 1 = k at h'
    cases h' with
    | one => rfl
    | next prev _ _ _ => have := prev.inv.pos; omega
  | @next k L1 L2 prev many sorted mem ih =>
    generalize hk : k + 1 = k' at h'
    cases h' with
    | one => have := prev.inv.pos; omega
    | @next k2 M1 M2 prev' many' sorted' mem' =>
      obtain rfl : k = k2 := by omega
      have := ih prev'
      subst this
      exact sorted_unique sorted sorted' fun s => (mem s).trans (mem' s).symm

theorem _root_.OpenML.Spec.Level.prev {X : List (List Nat)} {thr k : Nat} {L : List (List Nat)} (h : Level X thr (k + 1) L) (hk : 1 ≤ k) :
    ∃ L0, Level X thr k L0 ∧ 1 < L0.length := by
  generalize hk' : k + 1 = k' at h
  cases h with
  | one => omega
  | @next k2 M1 M2 prev' many' sorted' mem' =>
    obtain rfl : k = k2 := by omega
    exact ⟨_, prev', many'⟩

theorem _root_.OpenML.Spec.Level.down {X : List (List Nat)} {thr k : Nat} {L : List (List Nat)} (d : Nat) (h : Level X thr (k + d + 1) L)
    (hk : 1 ≤ k) : ∃ L0, Level X thr k L0 ∧ 1 < L0.length := by
  induction d generalizing L with
  | zero => exact Level.prev h hk
  | succ d ih =>
    obtain ⟨L0, h0, _⟩ := Level.prev h (by omega)
    exact ih h0

theorem before_of_sorted {L : List (List Nat)} (hL : L.Pairwise (DictBefore false)) {p q : List Nat} (hp : p ∈ L)
    (hq : q ∈ L) (hpq : DictBefore false p q) : Before L p q := by
  induction L with
  | nil => simp at hp
  | cons a L ih =>
    have h := List.pairwise_cons.mp hL
    rcases List.mem_cons.mp hp with rfl | hp'
    · rcases List.mem_cons.mp hq with rfl | hq'
      · exact absurd hpq (dict_irrefl _)
      · exact List.Sublist.cons_cons _ (List.singleton_sublist.mpr hq')
    · rcases List.mem_cons.mp hq with rfl | hq'
      · exact (dictBefore_asymm false _ _ hpq (h.1 p hp')).elim
      · exact (ih h.2 hp' hq').cons _

theorem exists_next {X : List (List Nat)} {thr k : Nat} {L : List (List Nat)} (hL : Level X thr k L) :
    ∃ L' : List (List Nat), L'.Pairwise (DictBefore false) ∧ ∀ s, s ∈ L' ↔
      ∃ P x y, s = P ++ [x, y] ∧ Before L (P ++ [x]) (P ++ [y]) ∧ thr ≤ occurrences X s := by
  have inv := hL.inv
  obtain ⟨n, rfl⟩ : ∃ n, k = n + 1 := ⟨k - 1, by have := inv.pos; omega⟩
  obtain ⟨curr, h2, h3, h4⟩ := nextLevel_spec X thr n L inv.len
  have hmem : ∀ s, s ∈ curr.map Prod.fst ↔
      ∃ P x y, s = P ++ [x, y] ∧ Before L (P ++ [x]) (P ++ [y]) ∧ thr ≤ occurrences X s := by
    intro s
    rw [List.mem_map]
    constructor
    · rintro ⟨⟨s', c⟩, h, rfl⟩
      obtain ⟨ha, rfl, hc⟩ := (h4 s' c).mp h
      obtain ⟨P, x, y, e, hb⟩ := (mem_candList_iff inv.pos inv.len inv.sorted).mp ha
      exact ⟨P, x, y, e, hb, hc⟩
    · rintro ⟨P, x, y, e, hb, hc⟩
      exact ⟨(s, occurrences X s), (h4 _ _).mpr
        ⟨(mem_candList_iff inv.pos inv.len inv.sorted).mpr ⟨P, x, y, e, hb⟩, rfl, hc⟩, rfl⟩
  by_cases hc : curr = []
  · subst hc
    exact ⟨[], List.Pairwise.nil, hmem⟩
  · have hlen : ∀ r ∈ curr.map Prod.fst, r.length = n + 2 := by
      intro r hr
      obtain ⟨P, x, y, rfl, hb, _⟩ := (hmem r).mp hr
      have := inv.len _ (hb.subset (by simp) : P ++ [x] ∈ L)
      simp at this ⊢; omega
    obtain ⟨y, _, h6, h7⟩ := sortrows_rect (curr.map Prod.fst) (n + 2) (by omega) (by simpa using hc) hlen h3
    exact ⟨y, h7, fun s => (h6.mem_iff).trans (hmem s)⟩

/-- The loop from a non-empty level on. -/
theorem levelLoop_spec (X : List (List Nat)) (supp : Nat) : ∀ (fuel k : Nat) (L : List (List Nat)) (all : Bucket),
    Level X supp k L → L ≠ [] → X.flatten.length + 3 ≤ fuel + k →
    (∃ new K s, levelLoop X supp fuel L (k + 1) all = .ok (all ++ new) ∧ k ≤ K ∧ Level X supp K [s] ∧
      (new.map Prod.fst).Nodup ∧
      ∀ s c, (s, c) ∈ new ↔ ∃ j M, k < j ∧ Level X supp j M ∧ s ∈ M ∧ c = occurrences X s) ∨
    (levelLoop X supp fuel L (k + 1) all = .throw .invalidArgument ∧ ∃ K, k < K ∧ Level X supp K []) := by
  intro fuel
  induction fuel with
  | zero =>
    intro k L all hL hne hf
    have := hL.inv.size_le hne
    omega
  | succ fuel ih =>
    intro k L all hL hne hf
    have inv := hL.inv
    unfold levelLoop
    by_cases h1 : L.length ≤ 1
    · rw [if_pos h1]
      left
      match L, hne, h1 with
      | [s], _, _ =>
        refine ⟨[], k, s, by simp, Nat.le_refl _, hL, by simp, ?_⟩
        intro s' c
        simp only [List.not_mem_nil, false_iff]
        rintro ⟨j, M, hj, hM, _, _⟩
        obtain ⟨d, rfl⟩ : ∃ d, j = k + d + 1 := ⟨j - k - 1, by omega⟩
        obtain ⟨L0, h0, h2⟩ := Level.down d hM inv.pos
        have := h0.unique hL
        subst this
        simp at h2
    · rw [if_neg h1]
      obtain ⟨n, rfl⟩ : ∃ n, k = n + 1 := ⟨k - 1, by have := inv.pos; omega⟩
      obtain ⟨curr, h2, h3, h4⟩ := nextLevel_spec X supp n L inv.len
      rw [h2]
      simp only [Res.bind_ok]
      have hmem : ∀ s, s ∈ curr.map Prod.fst ↔
          ∃ P x y, s = P ++ [x, y] ∧ Before L (P ++ [x]) (P ++ [y]) ∧ supp ≤ occurrences X s := by
        intro s
        rw [List.mem_map]
        constructor
        · rintro ⟨⟨s', c⟩, h, rfl⟩
          obtain ⟨ha, rfl, hc⟩ := (h4 s' c).mp h
          obtain ⟨P, x, y, e, hb⟩ := (mem_candList_iff inv.pos inv.len inv.sorted).mp ha
          exact ⟨P, x, y, e, hb, hc⟩
        · rintro ⟨P, x, y, e, hb, hc⟩
          exact ⟨(s, occurrences X s), (h4 _ _).mpr
            ⟨(mem_candList_iff inv.pos inv.len inv.sorted).mpr ⟨P, x, y, e, hb⟩, rfl, hc⟩, rfl⟩
      by_cases hc : curr = []
      · right
        subst hc
        refine ⟨by simp [sortrows], n + 2, by omega, ?_⟩
        exact Level.next hL (by omega) List.Pairwise.nil hmem
      · have hlen : ∀ r ∈ curr.map Prod.fst, r.length = n + 2 := by
          intro r hr
          obtain ⟨P, x, y, rfl, hb, _⟩ := (hmem r).mp hr
          have := inv.len _ (hb.subset (by simp) : P ++ [x] ∈ L)
          simp at this ⊢; omega
        obtain ⟨y, h5, h6, h7⟩ := (sortrows_rect (curr.map Prod.fst) (n + 2) (by omega) (by simpa using hc) hlen h3)
        rw [h5]
        simp only [Res.bind_ok]
        have hy : Level X supp (n + 2) y := Level.next hL (by omega) h7 fun s => (h6.mem_iff).trans (hmem s)
        have hyne : y ≠ [] := by
          intro e
          rw [e] at h6
          have := h6.length_eq
          simp at this
          exact hc (List.length_eq_zero_iff.mp this.symm)
        have hcurr : ∀ s c, (s, c) ∈ curr ↔ s ∈ y ∧ c = occurrences X s := by
          intro s c
          rw [h6.mem_iff, hmem, h4, mem_candList_iff inv.pos inv.len inv.sorted]
          constructor
          · rintro ⟨⟨P, x, y, e, hb⟩, rfl, hc⟩
            exact ⟨⟨P, x, y, e, hb, hc⟩, rfl⟩
          · rintro ⟨⟨P, x, y, e, hb, hc⟩, rfl⟩
            exact ⟨⟨P, x, y, e, hb⟩, rfl, hc⟩
        rcases ih (n + 2) y (all ++ curr) hy hyne (by omega) with ⟨new, K, s, e1, e2, e3, e4, e5⟩ | ⟨e1, K, e2, e3⟩
        · left
          refine ⟨curr ++ new, K, s, by rw [e1, List.append_assoc], by omega, e3, ?_, ?_⟩
          · rw [List.map_append, List.nodup_append]
            refine ⟨h3, e4, ?_⟩
            rintro a ha b hb rfl
            obtain ⟨⟨b', c⟩, hb', rfl⟩ := List.mem_map.mp hb
            obtain ⟨j, M, hj, hM, hbM, _⟩ := (e5 _ _).mp hb'
            have l1 : b'.length = n + 2 := hlen _ ha
            have l2 : b'.length = j := hM.inv.len _ hbM
            omega
          · intro s c
            rw [List.mem_append, e5, hcurr]
            constructor
            · rintro (⟨h, rfl⟩ | ⟨j, M, hj, h⟩)
              · exact ⟨n + 2, y, by omega, hy, h, rfl⟩
              · exact ⟨j, M, by omega, h⟩
            · rintro ⟨j, M, hj, hM, hs, rfl⟩
              by_cases hjn : j = n + 2
              · subst hjn
                rw [hM.unique hy] at hs
                exact Or.inl ⟨hs, rfl⟩
              · exact Or.inr ⟨j, M, by omega, hM, hs, rfl⟩
        · right
          exact ⟨e1, K, by omega, e3⟩

/-- Outcome of a fit in terms of levels. -/
theorem fitData_spec (X : List (List Nat)) (supp : Nat) (all : Bucket) :
    (∃ new K s, fitData X supp all = .ok (all ++ new) ∧ Level X supp K [s] ∧ (new.map Prod.fst).Nodup ∧
      ∀ s c, (s, c) ∈ new ↔ (∃ j M, Level X supp j M ∧ s ∈ M) ∧
        c = if s.length = 1 then support X s else occurrences X s) ∨
    (fitData X supp all = .throw .invalidArgument ∧ ∃ K, 2 ≤ K ∧ Level X supp K []) ∨
    (fitData X supp all = .throw .runtimeError ∧ Level X supp 1 []) := by
  unfold fitData
  have h1 : Level X supp 1 ((levelOne X supp).map Prod.fst) := by rw [levelOne_fst]; exact Level.one
  by_cases hn : ∀ v ∈ (fitTransform X).stored.map Prod.snd, keptRecord X supp v = false
  · right; right
    rw [if_pos hn]
    rw [noRecords_iff.mp hn] at h1
    exact ⟨rfl, h1⟩
  · rw [if_neg hn]
    rw [noRecords_iff] at hn
    rcases levelLoop_spec X supp (X.flatten.length + 2) 1 _ (all ++ levelOne X supp) h1 (by simpa using hn) (by omega) with
      ⟨new, K, s, e1, e2, e3, e4, e5⟩ | ⟨e1, K, e2, e3⟩
    · left
      refine ⟨levelOne X supp ++ new, K, s, by simpa using e1, e3, ?_, ?_⟩
      · rw [List.map_append, List.nodup_append]
        refine ⟨levelOne_nodup X supp, e4, ?_⟩
        rintro a ha b hb rfl
        obtain ⟨⟨b', c⟩, hb', rfl⟩ := List.mem_map.mp hb
        obtain ⟨j, M, hj, hM, hbM, _⟩ := (e5 _ _).mp hb'
        have l1 : b'.length = 1 := h1.inv.len _ ha
        have l2 : b'.length = j := hM.inv.len _ hbM
        omega
      · intro s c
        rw [List.mem_append, e5]
        constructor
        · rintro (h | ⟨j, M, hj, hM, hs, rfl⟩)
          · have hs : s ∈ (levelOne X supp).map Prod.fst := List.mem_map.mpr ⟨_, h, rfl⟩
            obtain ⟨v, rfl, _, rfl, _⟩ := mem_levelOne.mp h
            exact ⟨⟨1, _, h1, hs⟩, by simp⟩
          · have : s.length = j := hM.inv.len _ hs
            exact ⟨⟨j, M, hM, hs⟩, by rw [if_neg (by omega)]⟩
        · rintro ⟨⟨j, M, hM, hs⟩, rfl⟩
          have hl : s.length = j := hM.inv.len _ hs
          have hj := hM.inv.pos
          by_cases h : j = 1
          · subst h
            left
            rw [hM.unique h1] at hs
            obtain ⟨⟨s', c⟩, h2, rfl⟩ := List.mem_map.mp hs
            obtain ⟨v, rfl, h3, rfl, h4⟩ := mem_levelOne.mp h2
            simpa using h2
          · right
            rw [if_neg (by omega)]
            exact ⟨j, M, by omega, hM, hs, rfl⟩
    · right; left
      exact ⟨e1, K, by omega, e3⟩

/-! ## Consistently ordered databases -/

theorem support_anti {X : List (List Nat)} {s s' : List Nat} (h : ∀ v ∈ s, v ∈ s') : support X s' ≤ support X s := by
  apply List.countP_mono_left
  intro t _ ht
  simp only [decide_eq_true_eq] at ht ⊢
  exact fun v hv => ht v (h v hv)

theorem _root_.OpenML.Spec.IsFrequent.sublist {X : List (List Nat)} {thr k : Nat} {s s' : List Nat} (h : IsFrequent X thr k s)
    (hs : s'.Sublist s) : IsFrequent X thr s'.length s' :=
  ⟨rfl, h.increasing.sublist hs, fun v hv => h.occur v (hs.subset hv),
    Nat.le_trans h.frequent (support_anti fun _ hv => hs.subset hv)⟩

theorem ordered_level {X : List (List Nat)} {thr k : Nat} {L : List (List Nat)} (hX : ConsistentlyOrdered X)
    (h : Level X thr k L) : L.Pairwise (DictBefore false) ∧ ∀ s, s ∈ L ↔ IsFrequent X thr k s := by
  induction h with
  | one =>
    constructor
    · rw [List.pairwise_map]
      refine (hX.2.sublist List.filter_sublist).imp ?_
      intro a b h
      exact dict_cons.mpr (Or.inl h)
    · intro s
      simp only [List.mem_map, List.mem_filter, mem_firstOccurrences, List.mem_flatten, decide_eq_true_eq]
      constructor
      · rintro ⟨v, ⟨h1, h2⟩, rfl⟩
        exact ⟨rfl, by simp, by intro w hw; simp at hw; subst hw; exact h1, h2⟩
      · rintro ⟨h1, h2, h3, h4⟩
        match s, h1 with
        | [v], _ => exact ⟨v, ⟨h3 v (by simp), h4⟩, rfl⟩
  | @next k L L' prev many sorted mem ih =>
    refine ⟨sorted, fun s => ?_⟩
    obtain ⟨ih1, ih2⟩ := ih
    rw [mem]
    constructor
    · rintro ⟨P, x, y, rfl, hb, hc⟩
      have f1 := (ih2 _).mp (hb.subset (by simp) : P ++ [x] ∈ L)
      have f2 := (ih2 _).mp (hb.subset (by simp) : P ++ [y] ∈ L)
      have hxy : x < y := by
        have := ih1.sublist hb
        simp only [List.pairwise_cons, List.mem_singleton, forall_eq] at this
        exact dict_snoc.mp this.1
      have hinc : (P ++ [x, y]).Pairwise (· < ·) := by
        have i1 := f1.increasing
        have i2 := f2.increasing
        rw [List.pairwise_append] at i1 i2 ⊢
        refine ⟨i1.1, by simp [hxy], ?_⟩
        intro a ha b hb
        simp at hb
        rcases hb with rfl | rfl
        · exact i1.2.2 a ha b (by simp)
        · exact i2.2.2 a ha b (by simp)
      refine ⟨?_, hinc, ?_, ?_⟩
      · have := f1.size
        simp at this ⊢; omega
      · intro v hv
        simp at hv
        rcases hv with hv | rfl | rfl
        · exact f1.occur v (by simp [hv])
        · exact f1.occur v (by simp)
        · exact f2.occur v (by simp)
      · rw [← occurrences_increasing hX.1 hinc]; exact hc
    · intro hf
      have hk := prev.inv.pos
      have hlen := hf.size
      have hne : s ≠ [] := by intro e; rw [e] at hlen; simp at hlen
      have hne2 : s.dropLast ≠ [] := by
        intro e
        have := congrArg List.length e
        simp at this; omega
      have hs : s = s.dropLast.dropLast ++ [s.dropLast.getLast hne2, s.getLast hne] := by
        conv_lhs => rw [← List.dropLast_append_getLast hne, ← List.dropLast_append_getLast hne2]
        simp
      generalize s.dropLast.dropLast = P at hs
      generalize s.dropLast.getLast hne2 = x at hs
      generalize s.getLast hne = y at hs
      clear hne hne2
      subst hs
      refine ⟨P, x, y, rfl, ?_, ?_⟩
      · have g1 : IsFrequent X thr k (P ++ [x]) := by
          have := hf.sublist (s' := P ++ [x]) (List.Sublist.append_left (by simp) P)
          simp at this hlen
          obtain rfl : k = P.length + 1 := by omega
          exact this
        have g2 : IsFrequent X thr k (P ++ [y]) := by
          have := hf.sublist (s' := P ++ [y]) (List.Sublist.append_left (by simp) P)
          simp at this hlen
          obtain rfl : k = P.length + 1 := by omega
          exact this
        have hxy : x < y := by
          have := (List.pairwise_append.mp hf.increasing).2.1
          simpa using this
        exact before_of_sorted ih1 ((ih2 _).mpr g1) ((ih2 _).mpr g2) (dict_snoc.mpr hxy)
      · rw [occurrences_increasing hX.1 hf.increasing]; exact hf.frequent

/-- Two distinct frequent itemsets one size below. -/
theorem two_below {X : List (List Nat)} {thr k : Nat} {s : List Nat} (h : IsFrequent X thr (k + 2) s) :
    IsFrequent X thr (k + 1) s.tail ∧ IsFrequent X thr (k + 1) s.dropLast ∧ s.tail ≠ s.dropLast := by
  have hl := h.size
  have h1 := h.sublist (List.tail_sublist s)
  have h2 := h.sublist (List.dropLast_sublist s)
  rw [List.length_tail, hl] at h1
  rw [List.length_dropLast, hl] at h2
  refine ⟨h1, h2, ?_⟩
  match s, hl with
  | a :: b :: r, _ =>
    have := h.increasing
    simp at this
    simp; omega

/-- From a frequent itemset of size `k` all smaller levels exist and the level of that size is reached. -/
theorem ordered_reach {X : List (List Nat)} {thr : Nat} (hX : ConsistentlyOrdered X) : ∀ (k : Nat) (s : List Nat),
    IsFrequent X thr (k + 1) s → ∃ L, Level X thr (k + 1) L := by
  intro k
  induction k with
  | zero => intro s _; exact ⟨_, Level.one⟩
  | succ k ih =>
    intro s hs
    obtain ⟨f1, f2, hne⟩ := two_below hs
    obtain ⟨L, hL⟩ := ih _ f1
    obtain ⟨h1, h2⟩ := ordered_level hX hL
    have m1 := (h2 _).mpr f1
    have m2 := (h2 _).mpr f2
    have hmany : 1 < L.length := by
      match L, m1, m2 with
      | [a], m1, m2 => simp at m1 m2; exact absurd (m1.trans m2.symm) hne
      | a :: b :: r, _, _ => simp
    have inv := hL.inv
    have hfin := exists_next (X := X) (thr := thr) hL
    obtain ⟨L', h3, h4⟩ := hfin
    exact ⟨L', Level.next hL hmany h3 h4⟩

end OpenML.Apriori
