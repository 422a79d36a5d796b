import Verif.Lemmas.Objects
import Verif.Props.HashTree
import Verif.Model.Norm

/-!
# C143: copying and destroying trees
-/

namespace OpenML

open OpenML.Objects OpenML.Spec

section KD
variable {α : Type} [CommRing α] [LinearOrder α]

/-- C143. After every program that constructs, copies, assigns and destroys k-d trees: an object answers queries like a tree freshly
built from the arguments its family goes back to, as long as no member of the family has been destroyed. As soon as one has been
destroyed, every query of every other member fails with `std::out_of_range`. -/
theorem C143_answers (ops : List (Op (KDArgs α) Empty)) (w : World (List α → α) (List (KDTree.Node α)))
    (h : run kdClass World.empty ops = .ok w) (n family : Nat) (hf : families ops n = some family) :
    ∃ a, (constructions ops)[family]? = some a ∧
      (¬ Bereaved ops family → ∀ queries,
        (∀ Q k, kdQuery Q w n queries k = KDTree.build a.data a.leafSize >>= fun t => KDTree.query a.nrm Q t queries k) ∧
        ∀ radius, kdRadius w n queries radius = KDTree.build a.data a.leafSize >>= fun t => KDTree.queryRadius a.nrm t queries radius) ∧
      (Bereaved ops family → ∀ queries, queries ≠ [] →
        (∀ Q k, kdQuery Q w n queries k = .throw .outOfRange) ∧ ∀ radius, kdRadius w n queries radius = .throw .outOfRange) := by
  obtain ⟨h1, h2⟩ := kd_inv ops w h
  have A := addressed_run kdClass kdClass_inPlace ops w h
  obtain ⟨x, hx, hp⟩ := Option.map_eq_some_iff.mp ((A.address n).trans hf)
  subst hp
  obtain ⟨a, ha, ho⟩ := h1 n x.1 x.2 hx
  obtain ⟨t, ht, g1, g2⟩ := h2 x.2 a ha
  refine ⟨a, ha, fun hb queries => ⟨fun Q k => ?_, fun radius => ?_⟩, fun hb queries hne => ?_⟩
  · simp only [kdQuery, hx, g1 hb, ht, Res.bind_ok, ho]
  · simp only [kdRadius, hx, g1 hb, ht, Res.bind_ok, ho]
  · obtain ⟨q, qs, rfl⟩ := List.exists_cons_of_ne_nil hne
    refine ⟨fun Q k => ?_, fun radius => ?_⟩
    · simp only [kdQuery, hx, g2 hb]
      simp [KDTree.query, mapRes, KDTree.querySingle, KDTree.querySingleWith]
    · simp only [kdRadius, hx, g2 hb]
      simp [KDTree.queryRadius, mapRes, KDTree.radiusSingle, KDTree.radiusSingleWith]

/-- C143. Names that belong to no family have no object: using them is undefined. -/
theorem C143_no_object (ops : List (Op (KDArgs α) Empty)) (w : World (List α → α) (List (KDTree.Node α)))
    (h : run kdClass World.empty ops = .ok w) (n : Nat) (hf : families ops n = none) (Q : PQueue (WithTop α × Nat))
    (queries : List (List α)) (k : Nat) : kdQuery Q w n queries k = .ub := by
  have A := addressed_run kdClass kdClass_inPlace ops w h
  have hn := (A.address n).trans hf
  rw [Option.map_eq_none_iff] at hn
  simp [kdQuery, hn]

/-- C143. Programs that neither copy nor assign are safe: every object still in existence answers like a fresh tree, whatever other
objects have been destroyed. -/
theorem C143_without_copies (ops : List (Op (KDArgs α) Empty)) (w : World (List α → α) (List (KDTree.Node α)))
    (h : run kdClass World.empty ops = .ok w) (hops : ∀ d s, Op.copy d s ∉ ops ∧ Op.assign d s ∉ ops) (n family : Nat)
    (hf : families ops n = some family) : ∃ a, (constructions ops)[family]? = some a ∧ ∀ Q queries k,
      kdQuery Q w n queries k = KDTree.build a.data a.leafSize >>= fun t => KDTree.query a.nrm Q t queries k := by
  obtain ⟨a, ha, g, -⟩ := C143_answers ops w h n family hf
  refine ⟨a, ha, fun Q queries k => (g ?_ queries).1 Q k⟩
  suffices H : ∀ w, run kdClass World.empty ops = .ok w → (∀ n m i, families ops n = some i → families ops m = some i → n = m) ∧
      ∀ n i, families ops n = some i → ¬ Bereaved ops i from (H w h).2 n family hf
  clear h hf ha g n family a w
  induction ops using List.reverseRecOn with
  | nil => exact fun w _ => ⟨fun n m i hn => by simp [families, familiesFrom] at hn, fun n i hn => bereaved_nil i⟩
  | append_singleton ops op ih =>
    intro w hw
    obtain ⟨v, hv, -⟩ := (run_snoc kdClass ops op _ _).mp hw
    obtain ⟨i1, i2⟩ := ih (fun d s => ⟨fun hm => (hops d s).1 (List.mem_append_left _ hm),
      fun hm => (hops d s).2 (List.mem_append_left _ hm)⟩) v hv
    have A := addressed_run kdClass kdClass_inPlace ops v hv
    cases op with
    | construct c b =>
      simp only [families_snoc, kinship]
      have hbe : ∀ i, Bereaved (ops ++ [.construct c b]) i ↔ Bereaved ops i := fun i => by rw [bereaved_snoc]; simp
      have hno : ¬ Bereaved ops (constructions ops).length := by
        rintro ⟨x, k, y, rfl, hk⟩
        rw [run_append, Res.bind_eq_ok] at hv
        obtain ⟨u, hu, -⟩ := hv
        have := (addressed_run kdClass kdClass_inPlace x u hu).family_lt hk
        rw [constructions_append] at this
        simp only [List.length_append] at this
        omega
      refine ⟨fun n m i hn hm => ?_, fun n i hn => ?_⟩
      · by_cases h1 : n = c
        · by_cases h2 : m = c
          · rw [h1, h2]
          · subst h1
            rw [Function.update_self] at hn
            rw [Function.update_of_ne h2] at hm
            have := A.family_lt hm
            cases hn
            omega
        · rw [Function.update_of_ne h1] at hn
          by_cases h2 : m = c
          · subst h2
            rw [Function.update_self] at hm
            have := A.family_lt hn
            cases hm
            omega
          · rw [Function.update_of_ne h2] at hm
            exact i1 n m i hn hm
      · rw [hbe]
        by_cases h1 : n = c
        · subst h1
          rw [Function.update_self] at hn
          cases hn
          exact hno
        · rw [Function.update_of_ne h1] at hn
          exact i2 n i hn
    | copy d s => exact absurd (by simp) (hops d s).1
    | assign d s => exact absurd (by simp) (hops d s).2
    | destroy c =>
      simp only [families_snoc, kinship]
      refine ⟨fun n m i hn hm => ?_, fun n i hn => ?_⟩
      · by_cases h1 : n = c
        · subst h1; simp at hn
        · by_cases h2 : m = c
          · subst h2; simp at hm
          · rw [Function.update_of_ne h1] at hn
            rw [Function.update_of_ne h2] at hm
            exact i1 n m i hn hm
      · by_cases h1 : n = c
        · subst h1; simp at hn
        · rw [Function.update_of_ne h1] at hn
          rw [bereaved_snoc, not_or]
          refine ⟨i2 n i hn, ?_⟩
          rintro ⟨k, hk, hf⟩
          cases hk
          exact h1 (i1 n c i hn hf)
    | call c e => exact e.elim

/-- C143. Passing a tree by value to a function, or making a copy in an inner block: when the copy is destroyed, the tree itself can
no longer be queried. -/
theorem C143_pass_by_value (ops : List (Op (KDArgs α) Empty)) (w : World (List α → α) (List (KDTree.Node α)))
    (h : run kdClass World.empty ops = .ok w) (n family c : Nat) (hf : families ops n = some family) (hc : families ops c = none) :
    ∃ w', run kdClass World.empty (ops ++ [.copy c n, .destroy c]) = .ok w' ∧
      ∀ Q queries k, queries ≠ [] → kdQuery Q w' n queries k = .throw .outOfRange := by
  have A := addressed_run kdClass kdClass_inPlace ops w h
  obtain ⟨x, hx, hp⟩ := Option.map_eq_some_iff.mp ((A.address n).trans hf)
  have hnc : w.objs c = none := Option.map_eq_none_iff.mp ((A.address c).trans hc)
  have hne : n ≠ c := fun e => by rw [e, hc] at hf; cases hf
  refine ⟨_, by
    rw [run_append, h, Res.bind_ok]
    simp only [run, step, hnc, hx, Res.bind_ok, Function.update_self]
    rfl, fun Q queries k hq => ?_⟩
  have hrun : run kdClass World.empty (ops ++ [.copy c n, .destroy c]) =
      .ok ⟨Function.update (Function.update w.objs c (some x)) c none, w.heap.modify x.2 kdClass.clean⟩ := by
    rw [run_append, h, Res.bind_ok]
    simp only [run, step, hnc, hx, Res.bind_ok, Function.update_self]
  have e : ops ++ [Op.copy c n, Op.destroy c] = (ops ++ [Op.copy c n]) ++ [Op.destroy c] := by simp
  have hfc : families (ops ++ [Op.copy c n]) c = some family := by
    rw [families_snoc]; simp [kinship, hf]
  have hfn : families (ops ++ [Op.copy c n, Op.destroy c]) n = some family := by
    rw [e, families_snoc, families_snoc]
    simp [kinship, Function.update_of_ne hne, hf]
  obtain ⟨a, -, -, g⟩ := C143_answers _ _ hrun n family hfn
  refine (g ?_ queries hq).1 Q k
  rw [e, bereaved_snoc]
  exact Or.inr ⟨c, rfl, hfc⟩

/-- C143. Assigning a temporary, `tree = KDTree(data, leaf_size, metric)`: the temporary is destroyed at the end of the statement, and
the tree cannot be queried afterwards, whatever data it was given. -/
theorem C143_assign_temporary (ops : List (Op (KDArgs α) Empty)) (w : World (List α → α) (List (KDTree.Node α)))
    (h : run kdClass World.empty ops = .ok w) (n family tmp : Nat) (hf : families ops n = some family)
    (hc : families ops tmp = none) (a : KDArgs α) (t : List (KDTree.Node α)) (ha : KDTree.build a.data a.leafSize = .ok t) :
    ∃ w', run kdClass World.empty (ops ++ [.construct tmp a, .assign n tmp, .destroy tmp]) = .ok w' ∧
      ∀ Q queries k, queries ≠ [] → kdQuery Q w' n queries k = .throw .outOfRange := by
  have A := addressed_run kdClass kdClass_inPlace ops w h
  obtain ⟨x, hx, hp⟩ := Option.map_eq_some_iff.mp ((A.address n).trans hf)
  have hnc : w.objs tmp = none := Option.map_eq_none_iff.mp ((A.address tmp).trans hc)
  have hne : n ≠ tmp := fun e => by rw [e, hc] at hf; cases hf
  have hinit : (kdClass (α := α)).init a = .ok (a.nrm, t) := by simp [kdClass, ha]
  have hrun : ∃ w', run kdClass World.empty (ops ++ [.construct tmp a, .assign n tmp, .destroy tmp]) = .ok w' := by
    refine ⟨⟨Function.update (Function.update (Function.update w.objs tmp (some (a.nrm, w.heap.length))) n
      (some (a.nrm, w.heap.length))) tmp none, (w.heap ++ [t]).modify w.heap.length kdClass.clean⟩, ?_⟩
    rw [run_append, h, Res.bind_ok]
    simp only [run, step, hnc, hinit, Res.bind_ok, Function.update_self, Function.update_of_ne hne, hx,
      Function.update_of_ne hne.symm]
  obtain ⟨w', hrun⟩ := hrun
  refine ⟨w', hrun, fun Q queries k hq => ?_⟩
  have e : ops ++ [Op.construct tmp a, Op.assign n tmp, Op.destroy tmp] =
      ((ops ++ [Op.construct tmp a]) ++ [Op.assign n tmp]) ++ [Op.destroy tmp] := by simp
  have hft : families ((ops ++ [Op.construct tmp a]) ++ [Op.assign n tmp]) tmp = some (constructions ops).length := by
    rw [families_snoc, families_snoc]
    simp [kinship, Function.update_of_ne hne.symm]
  have hfn : families (ops ++ [Op.construct tmp a, Op.assign n tmp, Op.destroy tmp]) n = some (constructions ops).length := by
    rw [e, families_snoc, families_snoc, families_snoc]
    simp [kinship, Function.update_of_ne hne]
  obtain ⟨b, -, -, g⟩ := C143_answers _ _ hrun n _ hfn
  refine (g ?_ queries hq).1 Q k
  rw [e, bereaved_snoc]
  exact Or.inr ⟨tmp, rfl, hft⟩

/-- Families during the copying phase and the destruction phase of a growing `std::vector`. -/
theorem Objects.families_copies {γ ε : Type} (ops : List (Op γ ε)) (l : List (Nat × Nat)) (hd : (l.map Prod.snd).Nodup)
    (hdis : ∀ p ∈ l, ∀ q ∈ l, p.1 ≠ q.2) (m : Nat) :
    (∀ p ∈ l, families (ops ++ l.map fun p => Op.copy p.2 p.1) p.2 = families ops p.1) ∧
      ((∀ p ∈ l, p.2 ≠ m) → families (ops ++ l.map fun p => Op.copy p.2 p.1) m = families ops m) := by
  induction l using List.reverseRecOn generalizing m with
  | nil => simp
  | append_singleton l q ih =>
    rw [List.map_append, List.nodup_append] at hd
    have ih' := fun m => ih hd.1 (fun p hp r hr => hdis p (List.mem_append_left _ hp) r (List.mem_append_left _ hr)) m
    have hq : families (ops ++ l.map fun p => Op.copy p.2 p.1) q.1 = families ops q.1 :=
      (ih' q.1).2 fun p hp => (hdis q (by simp) p (List.mem_append_left _ hp)).symm
    simp only [List.map_append, List.map_cons, List.map_nil, ← List.append_assoc, families_snoc, kinship]
    refine ⟨fun p hp => ?_, fun hm => ?_⟩
    · by_cases e : p.2 = q.2
      · rcases List.mem_append.mp hp with h1 | h1
        · exact absurd e (hd.2.2 p.2 (List.mem_map_of_mem h1) q.2 (by simp))
        · have : p = q := by simpa using h1
          subst this
          rw [Function.update_self, hq]
      · have : p ∈ l := by
          rcases List.mem_append.mp hp with h1 | h1
          · exact h1
          · exact absurd (by have : p = q := by simpa using h1
                             rw [this]) e
        rw [Function.update_of_ne e]
        exact (ih' m).1 p this
    · rw [Function.update_of_ne (hm q (by simp)).symm]
      exact (ih' m).2 fun p hp => hm p (List.mem_append_left _ hp)

/-- Destroying other objects does not change the family of an object. -/
theorem Objects.families_destroys {γ ε : Type} (ops : List (Op γ ε)) (l : List Nat) (m : Nat) (hm : m ∉ l) :
    families (ops ++ l.map fun n => (Op.destroy n : Op γ ε)) m = families ops m := by
  induction l using List.reverseRecOn with
  | nil => simp
  | append_singleton l q ih =>
    simp only [List.mem_append, not_or] at hm
    simp only [List.map_append, List.map_cons, List.map_nil, ← List.append_assoc, families_snoc, kinship]
    rw [Function.update_of_ne (by simpa using hm.2)]
    exact ih hm.1

/-- C143. Trees in a `std::vector` that grows: the elements are copied to new storage and the old ones destroyed (there is no move
constructor), and afterwards no tree of the vector can be queried. `pairs` are the old and new names. -/
theorem C143_vector_growth (ops : List (Op (KDArgs α) Empty)) (pairs : List (Nat × Nat))
    (hold : (pairs.map Prod.fst).Nodup) (hnew : (pairs.map Prod.snd).Nodup) (hdis : ∀ p ∈ pairs, ∀ q ∈ pairs, p.1 ≠ q.2)
    (hlive : ∀ p ∈ pairs, families ops p.1 ≠ none)
    (w : World (List α → α) (List (KDTree.Node α)))
    (h : run kdClass World.empty (ops ++ (pairs.map fun p => .copy p.2 p.1) ++ (pairs.map Prod.fst).map fun n => .destroy n) = .ok w)
    (p : Nat × Nat) (hp : p ∈ pairs) (Q : PQueue (WithTop α × Nat)) (queries : List (List α)) (hq : queries ≠ []) (k : Nat) :
    kdQuery Q w p.2 queries k = .throw .outOfRange := by
  obtain ⟨family, hfam⟩ := Option.ne_none_iff_exists'.mp (hlive p hp)
  have h1 : families (ops ++ pairs.map fun p => Op.copy p.2 p.1) p.2 = some family := by
    rw [(Objects.families_copies ops pairs hnew hdis 0).1 p hp, hfam]
  have h2 : families (ops ++ pairs.map fun p => Op.copy p.2 p.1) p.1 = some family := by
    rw [(Objects.families_copies ops pairs hnew hdis p.1).2 fun r hr => (hdis p hp r hr).symm, hfam]
  have h3 : families (ops ++ (pairs.map fun p => Op.copy p.2 p.1) ++ (pairs.map Prod.fst).map fun n => .destroy n) p.2 =
      some family := by
    rw [Objects.families_destroys _ _ _ ?_, h1]
    intro hm
    obtain ⟨r, hr, e⟩ := List.mem_map.mp hm
    exact hdis r hr p hp e
  obtain ⟨a, -, -, g⟩ := C143_answers _ _ h p.2 family h3
  refine (g ?_ queries hq).1 Q k
  obtain ⟨s, t, hst⟩ := List.append_of_mem (List.mem_map_of_mem (f := Prod.fst) hp)
  refine ⟨ops ++ (pairs.map fun p => Op.copy p.2 p.1) ++ s.map fun n => .destroy n, p.1, t.map fun n => .destroy n, ?_, ?_⟩
  · rw [hst]; simp
  · rw [Objects.families_destroys _ _ _ ?_, h2]
    intro hm
    rw [hst, List.nodup_append] at hold
    exact hold.2.2 p.1 hm p.1 (by simp) rfl
end KD

/-! ### Examples for the theorems on k-d trees -/

/-- Arguments of the trees in the examples: six points on a line, leaves of at most five. -/
def lineTree : KDArgs Int := ⟨⟨1, [[0], [7], [3], [10], [4], [20]]⟩, 5, norm1⟩

/-- Another set of points. -/
def otherLine : KDArgs Int := ⟨⟨1, [[100], [50], [20], [70], [30], [90]]⟩, 5, norm1⟩

/-- The nearest point to 6 according to object `n` after a program. -/
def askSix (ops : List (Op (KDArgs Int) Empty)) (n : Nat) : Res (List (List (WithTop Int × Nat))) :=
  run kdClass World.empty ops >>= fun w => kdQuery (listQueue Prod.fst) w n [[6]] 1

-- beside C143_answers and C143_pass_by_value: the original answers while the copy exists, not after the copy is gone
example : askSix [.construct 0 lineTree, .copy 1 0] 0 = .ok [[(((1 : Int) : WithTop Int), 1)]] := by decide +kernel
example : askSix [.construct 0 lineTree, .copy 1 0] 1 = .ok [[(((1 : Int) : WithTop Int), 1)]] := by decide +kernel
example : askSix [.construct 0 lineTree, .copy 1 0, .destroy 1] 0 = .throw .outOfRange := by decide +kernel
example : askSix [.construct 0 lineTree, .copy 1 0, .destroy 0] 1 = .throw .outOfRange := by decide +kernel
example : families [Op.construct 0 lineTree, (.copy 1 0 : Op (KDArgs Int) Empty)] 1 = some 0 := by decide
-- beside C143_no_object
example : families [Op.construct 0 lineTree, (.copy 1 0 : Op (KDArgs Int) Empty)] 2 = none := by decide
example : askSix [.construct 0 lineTree, .copy 1 0] 2 = .ub := by decide +kernel
-- beside C143_without_copies: destroying an unrelated tree does no harm
example : askSix [.construct 0 lineTree, .construct 1 otherLine, .destroy 1] 0 = .ok [[(((1 : Int) : WithTop Int), 1)]] := by
  decide +kernel
example : ∀ d s, Op.copy d s ∉ [Op.construct 0 lineTree, .construct 1 otherLine, (.destroy 1 : Op (KDArgs Int) Empty)] ∧
    Op.assign d s ∉ [Op.construct 0 lineTree, .construct 1 otherLine, (.destroy 1 : Op (KDArgs Int) Empty)] := by simp
-- beside C143_assign_temporary
example : askSix [.construct 0 otherLine, .construct 1 lineTree, .assign 0 1] 0 = .ok [[(((1 : Int) : WithTop Int), 1)]] := by
  decide +kernel
example : askSix [.construct 0 otherLine, .construct 1 lineTree, .assign 0 1, .destroy 1] 0 = .throw .outOfRange := by decide +kernel
example : (KDTree.build lineTree.data lineTree.leafSize >>= fun t => .ok t.length) = .ok 3 := by decide +kernel
-- beside C143_vector_growth: two trees, moved from names 0, 1 to names 2, 3
example : askSix [.construct 0 lineTree, .construct 1 otherLine, .copy 2 0, .copy 3 1] 2 =
    .ok [[(((1 : Int) : WithTop Int), 1)]] := by decide +kernel
example : askSix [.construct 0 lineTree, .construct 1 otherLine, .copy 2 0, .copy 3 1, .destroy 0, .destroy 1] 2 =
    .throw .outOfRange := by decide +kernel
example : ∀ p ∈ [(0, 2), (1, 3)], ∀ q ∈ [(0, 2), (1, 3)], p.1 ≠ q.2 := by decide

/-- C143. Copies of a hash tree are the same tree: each of them counts everything that was registered and added through any member of
its family. Only the lists of earlier reports (`earlier`) are separate. -/
theorem C143_hash_tree (ops : List (Op (Nat × Nat) HashCall)) (w : World HashOwn HashTree.Node)
    (h : run hashClass World.empty ops = .ok w) (n family : Nat) (hf : families ops n = some family) :
    ∃ maxLeaf maxChild, (constructions ops)[family]? = some (maxLeaf, maxChild) ∧
      (0 < maxChild → ∀ L, (∀ op ∈ countOps (familyCalls ops family), op.itemset.length = L) →
        ∃ earlier, ((∀ m k, Op.call m (.report k) ∉ ops) → earlier = []) ∧ ∀ support, ∃ found,
          hashReport w n support = .ok (earlier ++ found) ∧ (found.map Prod.fst).Nodup ∧
          ∀ s c, (s, c) ∈ found ↔ counterAfter (countOps (familyCalls ops family)) s = some c ∧ support ≤ c) := by
  obtain ⟨h1, h2, -, h4⟩ := hash_inv ops w h
  have A := addressed_run hashClass hashClass_inPlace ops w h
  obtain ⟨x, hx, hp⟩ := Option.map_eq_some_iff.mp ((A.address n).trans hf)
  subst hp
  have ha := h1 n x.1 x.2 hx
  refine ⟨x.1.maxLeaf, x.1.maxChild, ha, fun hmc L hL => ?_⟩
  obtain ⟨root, hroot, hrun⟩ := h2 x.2 _ ha
  refine ⟨x.1.collected, fun hq => h4 hq n x.1 x.2 hx, fun support => ⟨HashTree.dfs root support, ?_, ?_⟩⟩
  · simp only [hashReport, hx, hroot]
    rfl
  · obtain ⟨t, ht, g1, g2⟩ := C13_hash_tree_counts L x.1.maxLeaf x.1.maxChild hmc _ hL support
    rw [hrun] at ht
    cases ht
    have e : (HashTree.Tree.computeFrequency ⟨x.1.maxLeaf, x.1.maxChild, root, []⟩ support).2 = HashTree.dfs root support := by
      simp [HashTree.Tree.computeFrequency]
    rw [e] at g1 g2
    exact ⟨g1, g2⟩

-- beside C143_hash_tree: both copies report what was counted through either of them
example : (run hashClass World.empty [.construct 0 (2, 3), .call 0 (.insert [1, 2]), .copy 1 0, .call 1 (.insert [4, 5]),
    .call 0 (.occur [4, 5]), .call 1 (.occur [1, 2]), .call 1 (.occur [1, 2])] >>= fun w => hashReport w 0 0) =
      .ok [([1, 2], 2), ([4, 5], 1)] := by decide +kernel
example : countOps (familyCalls [Op.construct 0 (2, 3), .call 0 (.insert [1, 2]), .copy 1 0, .call 1 (.insert [4, 5]),
    .call 0 (.report 0), .call 1 (.occur [1, 2])] 0) = [.register [1, 2], .register [4, 5], .occur [1, 2]] := by decide
-- a report made through one of them is repeated only by that one
example : (run hashClass World.empty [.construct 0 (2, 3), .call 0 (.insert [1, 2]), .copy 1 0, .call 0 (.report 0)] >>= fun w =>
    hashReport w 0 0) = .ok [([1, 2], 0), ([1, 2], 0)] := by decide +kernel
example : (run hashClass World.empty [.construct 0 (2, 3), .call 0 (.insert [1, 2]), .copy 1 0, .call 0 (.report 0)] >>= fun w =>
    hashReport w 1 0) = .ok [([1, 2], 0)] := by decide +kernel

section Trees
variable {α : Type} [Field α] [LinearOrder α] {R : Type} [LinearOrder R]

/-- C143. Classification trees behave like values: after every program that constructs, fits, copies, assigns and destroys them, each
object predicts as if it had its own tree and its own labels, which copying duplicates; fitting or destroying one object never
changes another. Failures occur in the same places. -/
theorem C143_classifier (ops : List (Op (R × (List α → List α → List α → Res R) × DTree.Params R) (DMat α × List α))) :
    (run classifierClass World.empty ops >>= fun w => .ok fun n X => classifierProb w n X) =
      (valueRun (fun a => .ok ((⟨a.1, a.2.1, a.2.2, []⟩ : ClassifierOwn α R), DTree.Tree.null))
        (fun e x => do
          let M ← DTree.fit x.1.start x.1.imp x.1.params x.1.classes e.1 e.2
          .ok ({ x.1 with classes := M.classes }, M.root))
        (fun _ => none) ops >>= fun v => .ok fun n X =>
          match v n with
          | none => .ub
          | some x => DTree.predictProb ⟨x.1.classes, x.2⟩ X) := by
  have h := run_view (classifierClass (α := α) (R := R)) deleteTree_eq
    (fun e o s r hr => by
      obtain ⟨M, -, hr⟩ := Res.bind_eq_ok.mp hr
      cases hr; exact ⟨_, rfl⟩) ops World.empty (fun n x hx => by simp [World.empty] at hx)
  have hchange : (fun (e : DMat α × List α) (x : ClassifierOwn α R × DTree.Tree α (List Nat)) =>
      (classifierClass (α := α) (R := R)).call e x.1 x.2 >>= fun r =>
        Res.ok (r.1, r.2.content)) = fun e x => (do
          let M ← DTree.fit x.1.start x.1.imp x.1.params x.1.classes e.1 e.2
          .ok ({ x.1 with classes := M.classes }, M.root)) := by
    funext e x
    simp only [classifierClass]
    cases DTree.fit x.1.start x.1.imp x.1.params x.1.classes e.1 e.2 <;> rfl
  rw [hchange] at h
  have hempty : view (World.empty : World (ClassifierOwn α R) (DTree.Tree α (List Nat))) = fun _ => none := by
    funext n; rfl
  rw [hempty] at h
  have hinit : (classifierClass (α := α) (R := R)).init =
      fun a => .ok ((⟨a.1, a.2.1, a.2.2, []⟩ : ClassifierOwn α R), DTree.Tree.null) := rfl
  rw [hinit] at h
  rw [← h]
  cases hr : run (classifierClass (α := α) (R := R)) World.empty ops with
  | ok w =>
    simp only [Res.bind_ok]
    congr 1
    funext n X
    simp only [classifierProb, view]
    cases w.objs n with
    | none => rfl
    | some x =>
      simp only [Option.bind_some]
      cases w.heap[x.2]? <;> rfl
  | throw e => rfl
  | ub => rfl
  | diverge => rfl

/-- C143, the same for regression trees. -/
theorem C143_regressor (ops : List (Op (RegressorOwn α) (DMat α × List α))) :
    (run regressorClass World.empty ops >>= fun w => .ok fun n X => regressorPredict w n X) =
      (valueRun (fun a => .ok (a, DTree.Tree.null))
        (fun e x => do
          let T ← DTree.fitRegressor x.1.minStdev x.1.start x.1.imp x.1.params e.1 e.2
          .ok (x.1, T))
        (fun _ => none) ops >>= fun v => .ok fun n X =>
          match v n with
          | none => .ub
          | some x => DTree.predictRegressor x.2 X) := by
  have h := run_view (regressorClass (α := α)) deleteTree_eq
    (fun e o s r hr => by
      obtain ⟨M, -, hr⟩ := Res.bind_eq_ok.mp hr
      cases hr; exact ⟨_, rfl⟩) ops World.empty (fun n x hx => by simp [World.empty] at hx)
  have hchange : (fun (e : DMat α × List α) (x : RegressorOwn α × DTree.Tree α α) =>
      (regressorClass (α := α)).call e x.1 x.2 >>= fun r =>
        Res.ok (r.1, r.2.content)) = fun e x => (do
          let T ← DTree.fitRegressor x.1.minStdev x.1.start x.1.imp x.1.params e.1 e.2
          .ok (x.1, T)) := by
    funext e x
    simp only [regressorClass]
    cases DTree.fitRegressor x.1.minStdev x.1.start x.1.imp x.1.params e.1 e.2 <;> rfl
  rw [hchange] at h
  have hempty : view (World.empty : World (RegressorOwn α) (DTree.Tree α α)) = fun _ => none := by
    funext n; rfl
  rw [hempty] at h
  have hinit : (regressorClass (α := α)).init = fun a => .ok (a, DTree.Tree.null) := rfl
  rw [hinit] at h
  rw [← h]
  cases hr : run (regressorClass (α := α)) World.empty ops with
  | ok w =>
    simp only [Res.bind_ok]
    congr 1
    funext n X
    simp only [regressorPredict, view]
    cases w.objs n with
    | none => rfl
    | some x =>
      simp only [Option.bind_some]
      cases w.heap[x.2]? <;> rfl
  | throw e => rfl
  | ub => rfl
  | diverge => rfl

-- beside C143_classifier: a copy is fitted to other data and destroyed, the original predicts as before
example : (run (classifierClass (α := ℚ)) World.empty [.construct 0 (1 / 1000, DTree.giniScore, ⟨4, 0, 5, 0⟩),
    .call 0 (⟨1, [[1], [2], [3], [4]]⟩, [0, 0, 1, 1]), .copy 1 0, .call 1 (⟨1, [[1], [2], [3], [4]]⟩, [1, 1, 0, 0]), .destroy 1] >>=
      fun w => classifierProb w 0 [[1], [4]]) = .ok [[some 1, some 0], [some 0, some 1]] := by decide +kernel
example : (run (classifierClass (α := ℚ)) World.empty [.construct 0 (1 / 1000, DTree.giniScore, ⟨4, 0, 5, 0⟩),
    .call 0 (⟨1, [[1], [2], [3], [4]]⟩, [0, 0, 1, 1]), .copy 1 0, .call 1 (⟨1, [[1], [2], [3], [4]]⟩, [1, 1, 0, 0])] >>=
      fun w => classifierProb w 1 [[1], [4]]) = .ok [[some 0, some 1], [some 1, some 0]] := by decide +kernel
-- beside C143_regressor
example : (run (regressorClass (α := ℚ)) World.empty [.construct 0 ⟨0, 1 / 1000, DTree.squaredScore, ⟨4, 0, 5, -100⟩⟩,
    .call 0 (⟨1, [[1], [2], [3], [4]]⟩, [1, 1, 9, 9]), .copy 1 0, .destroy 0] >>= fun w => regressorPredict w 1 [[1], [4]]) =
      .ok [1, 9] := by decide +kernel
end Trees

end OpenML
