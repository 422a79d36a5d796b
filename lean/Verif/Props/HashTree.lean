import Verif.Lemmas.HashTree
import Mathlib.Data.List.Nodup

/-!
# C13, C14: the itemset hash tree
-/

namespace OpenML
open HashTree Spec

/-- C13. Registering and counting itemsets of one common length, in any order and on a tree of any bucket size and any
positive branching factor, never fails, and the first query returns exactly the registered itemsets whose counter reaches
the threshold, each once, with the number of occurrences reported after the first registration. -/
theorem C13_hash_tree_counts (L maxLeaf maxChild : Nat) (hmc : 0 < maxChild) (ops : List CountOp)
    (hops : ∀ op ∈ ops, op.itemset.length = L) (support : Nat) :
    ∃ t, (Tree.new maxLeaf maxChild).run ops = .ok t ∧
      ((t.computeFrequency support).2.map Prod.fst).Nodup ∧
      ∀ s c, (s, c) ∈ (t.computeFrequency support).2 ↔ counterAfter ops s = some c ∧ support ≤ c := by
  obtain ⟨t, h1, _, _, h4, h5, h6⟩ := run_spec (L := L) ops (Tree.new maxLeaf maxChild) hmc WF_empty hops
  obtain ⟨hn, _⟩ := entries_wf L [] t.root h5
  have hcoll : (t.computeFrequency support).2 = t.root.entries.filter (fun e => decide (support ≤ e.2)) := by
    simp [Tree.computeFrequency, h4, Tree.new, dfs]
  refine ⟨t, h1, ?_, ?_⟩
  · rw [hcoll]
    exact hn.sublist (List.filter_sublist.map Prod.fst)
  · intro s c
    rw [hcoll, find_filter_nodup hn, h6, foldl_stepCounter]
    simp [Tree.new, Node.empty, entries_leaf, find]

/-- Bucket size 2, three buckets: the third registration splits the root; what occurs before it is registered is not counted. -/
example : (∀ op ∈ [CountOp.occur [2, 3], .register [1, 2], .occur [1, 2], .register [4, 2], .register [2, 3], .occur [4, 2], .occur [4, 2]],
      op.itemset.length = 2) ∧
    ((Tree.new 2 3).run [.occur [2, 3], .register [1, 2], .occur [1, 2], .register [4, 2], .register [2, 3], .occur [4, 2],
      .occur [4, 2]]).bind (fun t => .ok (t.computeFrequency 1).2) = .ok [([1, 2], 1), ([4, 2], 2)] := ⟨by decide, by rfl⟩

/-- C13, consequence: bucket size and branching factor are unobservable up to the order of the report. -/
theorem C13_hash_tree_parameters_irrelevant (L ml mc ml' mc' : Nat) (h : 0 < mc) (h' : 0 < mc') (ops : List CountOp)
    (hops : ∀ op ∈ ops, op.itemset.length = L) (support : Nat) :
    ∃ t t', (Tree.new ml mc).run ops = .ok t ∧ (Tree.new ml' mc').run ops = .ok t' ∧
      (t.computeFrequency support).2.Perm (t'.computeFrequency support).2 := by
  obtain ⟨t, h1, h2, h3⟩ := C13_hash_tree_counts L ml mc h ops hops support
  obtain ⟨t', h4, h5, h6⟩ := C13_hash_tree_counts L ml' mc' h' ops hops support
  refine ⟨t, t', h1, h4, ?_⟩
  rw [List.perm_ext_iff_of_nodup (List.Nodup.of_map _ h2) (List.Nodup.of_map _ h5)]
  rintro ⟨s, c⟩
  rw [h3, h6]

/-- Two trees with different parameters report the same itemsets in different order. -/
example : ((Tree.new 1 3).run [.register [1, 2], .register [3, 2], .occur [1, 2], .occur [3, 2]]).bind (fun t => .ok (t.computeFrequency 1).2) =
      .ok [([3, 2], 1), ([1, 2], 1)] ∧
    ((Tree.new 5 1).run [.register [1, 2], .register [3, 2], .occur [1, 2], .occur [3, 2]]).bind (fun t => .ok (t.computeFrequency 1).2) =
      .ok [([1, 2], 1), ([3, 2], 1)] := ⟨by rfl, by rfl⟩

/-- C13, the length restriction matters: a registered itemset that ends at a node already split is never reported. -/
theorem C13_mixed_lengths_lose_entries :
    ∃ (ops : List CountOp) (t : Tree) (s : List Nat), (Tree.new 1 2).run ops = .ok t ∧ counterAfter ops s = some 0 ∧
      ∀ c, (s, c) ∉ (t.computeFrequency 0).2 := by
  refine ⟨[.register [1], .register []], ⟨1, 2, .mk false [([], 0)] [(1, .mk true [([1], 0)] [])], []⟩, [], ?_, ?_, ?_⟩
  · rfl
  · decide
  · intro c hc
    simp [Tree.computeFrequency, dfs, Node.entries, entriesList, entriesPair] at hc

/-- C13, and with a branching factor of zero a full bucket divides by zero. -/
theorem C13_zero_branching_undefined : (Tree.new 1 0).run [.register [1]] = .ub := by rfl

/-- A larger bucket postpones the division. -/
example : ((Tree.new 2 0).run [.register [1]]).bind (fun t => .ok (t.computeFrequency 0).2) = .ok [([1], 0)] ∧
    (Tree.new 2 0).run [.register [1], .register [2]] = .ub := ⟨by rfl, by rfl⟩

/-- C14. Whatever happens between two queries, the second one returns the first report again, followed by what a tree
without history would report. -/
theorem C14_compute_frequency_accumulates (t t' : Tree) (s1 s2 : Nat) (ops : List CountOp)
    (h : (t.computeFrequency s1).1.run ops = .ok t') :
    (t'.computeFrequency s2).2 = (t.computeFrequency s1).2 ++ (({ t' with collected := [] } : Tree).computeFrequency s2).2 := by
  have hkeep : ∀ (ops : List CountOp) (a b : Tree), a.run ops = .ok b → b.collected = a.collected := by
    intro ops
    induction ops with
    | nil => intro a b hab; cases hab; rfl
    | cons op ops ih =>
      intro a b hab
      simp only [Tree.run, Res.bind_eq_ok] at hab
      obtain ⟨c, hc, hb⟩ := hab
      rw [ih c b hb]
      cases op with
      | register s =>
        simp only [Tree.step, Tree.buildTree, Res.bind_eq_ok] at hc
        obtain ⟨r, _, hr⟩ := hc
        cases hr; rfl
      | occur s =>
        simp only [Tree.step, Tree.addSupport, Res.bind_eq_ok] at hc
        obtain ⟨r, _, hr⟩ := hc
        cases hr; rfl
  have := hkeep ops _ _ h
  simp [Tree.computeFrequency, this]

/-- C14, without changes in between: every frequent itemset is reported twice. -/
theorem C14_query_twice_duplicates (t : Tree) (support : Nat) (h : t.collected = []) :
    ((t.computeFrequency support).1.computeFrequency support).2 =
      (t.computeFrequency support).2 ++ (t.computeFrequency support).2 := by
  simp [Tree.computeFrequency, h]

-- bucket size 2, three buckets: the third registration splits the root
example : ((Tree.new 2 3).run [.register [1, 2], .occur [1, 2], .register [4, 2], .register [2, 3], .occur [4, 2],
      .occur [4, 2], .occur [9, 9], .register [1, 2]]).bind (fun t => .ok (t.computeFrequency 1).2)
    = .ok [([1, 2], 1), ([4, 2], 2)] := by rfl
example : ∀ op ∈ [CountOp.register [1, 2], .occur [1, 2], .register [4, 2]], op.itemset.length = 2 := by decide
example : (Tree.new 2 3).collected = [] := rfl

end OpenML
