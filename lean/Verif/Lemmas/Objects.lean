import Verif.Spec.Objects
import Verif.Lemmas.HashTree

/-! # Lemmas on programs that copy objects -/

namespace OpenML.Objects

open OpenML.Spec

variable {γ ε ο σ : Type}

theorem run_append (C : Class γ ε ο σ) (ops : List (Op γ ε)) : ∀ (w : World ο σ) (more : List (Op γ ε)),
    run C w (ops ++ more) = run C w ops >>= fun w' => run C w' more := by
  induction ops with
  | nil => intro w more; rfl
  | cons op ops ih =>
    intro w more
    simp only [List.cons_append, run]
    cases h : step C w op with
    | ok w' => simp only [Res.bind_ok]; exact ih w' more
    | throw e => rfl
    | ub => rfl
    | diverge => rfl

theorem run_snoc (C : Class γ ε ο σ) (ops : List (Op γ ε)) (op : Op γ ε) (w w' : World ο σ) :
    run C w (ops ++ [op]) = .ok w' ↔ ∃ v, run C w ops = .ok v ∧ step C v op = .ok w' := by
  rw [run_append, Res.bind_eq_ok]
  refine exists_congr fun v => and_congr_right fun _ => ?_
  simp only [run]
  cases step C v op <;> simp

theorem constructions_append (a b : List (Op γ ε)) : constructions (a ++ b) = constructions a ++ constructions b := by
  simp [constructions]

theorem familiesFrom_append (a : List (Op γ ε)) : ∀ (c : Nat) (f : Nat → Option Nat) (b : List (Op γ ε)),
    familiesFrom c f (a ++ b) = familiesFrom (c + (constructions a).length) (familiesFrom c f a) b := by
  induction a with
  | nil => intro c f b; simp [familiesFrom, constructions]
  | cons op a ih =>
    intro c f b
    simp only [List.cons_append, familiesFrom]
    rw [ih, show op :: a = [op] ++ a from rfl, constructions_append, List.length_append, Nat.add_assoc]

theorem families_snoc (ops : List (Op γ ε)) (op : Op γ ε) :
    families (ops ++ [op]) = kinship (constructions ops).length (families ops) op := by
  simp only [families, familiesFrom_append, familiesFrom, Nat.zero_add]

theorem familyCallsFrom_append (id : Nat) (a : List (Op γ ε)) : ∀ (c : Nat) (f : Nat → Option Nat) (b : List (Op γ ε)),
    familyCallsFrom c f id (a ++ b) =
      familyCallsFrom c f id a ++ familyCallsFrom (c + (constructions a).length) (familiesFrom c f a) id b := by
  induction a with
  | nil => intro c f b; simp [familyCallsFrom, familiesFrom, constructions]
  | cons op a ih =>
    intro c f b
    simp only [List.cons_append, familyCallsFrom, familiesFrom]
    rw [ih, show op :: a = [op] ++ a from rfl, constructions_append, List.length_append, Nat.add_assoc, List.append_assoc]

theorem familyCalls_snoc (ops : List (Op γ ε)) (op : Op γ ε) (id : Nat) :
    familyCalls (ops ++ [op]) id = familyCalls ops id ++
      (match op with | .call n e => if families ops n = some id then [e] else [] | _ => []) := by
  simp only [familyCalls, familyCallsFrom_append, familyCallsFrom, List.append_nil, families]
  cases op <;> rfl

theorem bereaved_nil (id : Nat) : ¬ Bereaved ([] : List (Op γ ε)) id := by
  rintro ⟨a, n, b, h, -⟩
  simp at h

theorem bereaved_snoc (ops : List (Op γ ε)) (op : Op γ ε) (id : Nat) :
    Bereaved (ops ++ [op]) id ↔ Bereaved ops id ∨ ∃ n, op = .destroy n ∧ families ops n = some id := by
  constructor
  · rintro ⟨a, n, b, h, hf⟩
    rcases List.eq_nil_or_concat b with rfl | ⟨b', x, rfl⟩
    · have h' := List.append_inj' h rfl
      exact Or.inr ⟨n, by simpa using h'.2, by rw [h'.1]; exact hf⟩
    · rw [List.concat_eq_append, ← List.cons_append, ← List.append_assoc] at h
      exact Or.inl ⟨a, n, b', (List.append_inj' h rfl).1, hf⟩
  · rintro (⟨a, n, b, rfl, hf⟩ | ⟨n, rfl, hf⟩)
    · exact ⟨a, n, b ++ [op], by simp, hf⟩
    · exact ⟨ops, n, [], rfl, hf⟩

/-- The family of an object is the address of its nodes, as long as no call allocates new nodes. -/
structure Addressed (ops : List (Op γ ε)) (w : World ο σ) : Prop where
  size : w.heap.length = (constructions ops).length
  address : ∀ n, (w.objs n).map Prod.snd = families ops n
  bound : ∀ n x, w.objs n = some x → x.2 < w.heap.length

theorem addressed_run (C : Class γ ε ο σ) (hC : ∀ e o s r, C.call e o s = .ok r → ∃ s', r.2 = .inPlace s') (ops : List (Op γ ε)) :
    ∀ w, run C World.empty ops = .ok w → Addressed ops w := by
  induction ops using List.reverseRecOn with
  | nil =>
    intro w h
    cases h
    exact ⟨rfl, fun n => rfl, fun n x h => by simp [World.empty] at h⟩
  | append_singleton ops op ih =>
    intro w h
    obtain ⟨v, hv, hs⟩ := (run_snoc C ops op _ _).mp h
    obtain ⟨h1, h2, h3⟩ := ih v hv
    have upd : ∀ (n : Nat) (x : Option (ο × Nat)) (m : Nat),
        ((Function.update v.objs n x) m).map Prod.snd = Function.update (families ops) n (x.map Prod.snd) m := by
      intro n x m
      by_cases hm : m = n
      · subst hm; simp
      · simp [Function.update_of_ne hm, h2]
    have ubd : ∀ (n : Nat) (x : Option (ο × Nat)) (L : Nat), v.heap.length ≤ L → (∀ y, x = some y → y.2 < L) →
        ∀ m y, Function.update v.objs n x m = some y → y.2 < L := by
      intro n x L hL hx m y hy
      by_cases hm : m = n
      · subst hm; exact hx y (by simpa using hy)
      · rw [Function.update_of_ne hm] at hy
        exact lt_of_lt_of_le (h3 m y hy) hL
    cases op with
    | construct n a =>
      simp only [step] at hs
      split at hs
      · cases hs
      · obtain ⟨os, ho, hs⟩ := Res.bind_eq_ok.mp hs
        cases hs
        refine ⟨by simp [constructions, h1], fun m => ?_, ?_⟩
        · rw [families_snoc]
          simp only [kinship, upd]
          rw [← h1]; rfl
        · refine ubd n _ _ (by simp) fun y hy => ?_
          cases hy; simp
    | copy d s =>
      simp only [step] at hs
      split at hs
      · rename_i x hd hx
        cases hs
        refine ⟨by simp [constructions, h1], fun m => ?_, ?_⟩
        · rw [families_snoc]
          simp only [kinship, upd]
          rw [← h2 s, hx]
        · exact ubd d _ _ le_rfl fun y hy => by cases hy; exact h3 s _ hx
      · cases hs
    | assign d s =>
      simp only [step] at hs
      split at hs
      · rename_i x0 x hd hx
        cases hs
        refine ⟨by simp [constructions, h1], fun m => ?_, ?_⟩
        · rw [families_snoc]
          simp only [kinship, upd]
          rw [← h2 s, hx]
        · exact ubd d _ _ le_rfl fun y hy => by cases hy; exact h3 s _ hx
      · cases hs
    | destroy n =>
      simp only [step] at hs
      split at hs
      · cases hs
      · cases hs
        refine ⟨by simp [constructions, h1], fun m => ?_, ?_⟩
        · rw [families_snoc]
          simp only [kinship, upd]
          rfl
        · simp only [List.length_modify]
          exact ubd n _ _ le_rfl fun y hy => by cases hy
    | call n e =>
      simp only [step] at hs
      split at hs
      · cases hs
      · rename_i x hx
        split at hs
        · cases hs
        · rename_i s hh
          obtain ⟨r, hr, hs⟩ := Res.bind_eq_ok.mp hs
          obtain ⟨s', hs'⟩ := hC e x.1 s r hr
          rw [hs'] at hs
          cases hs
          refine ⟨by simp [constructions, h1], fun m => ?_, ?_⟩
          · rw [families_snoc]
            simp only [kinship, upd]
            by_cases hm : m = n
            · subst hm; simp [← h2 m, hx]
            · simp [Function.update_of_ne hm]
          · simp only [List.length_set]
            exact ubd n _ _ le_rfl fun y hy => by cases hy; exact h3 n x hx

/-! ## k-d trees -/

section KD
variable {α : Type} [CommRing α] [LinearOrder α]

theorem kdClass_inPlace (e : Empty) (o : List α → α) (s : List (KDTree.Node α)) (r) (_ : (kdClass (α := α)).call e o s = .ok r) :
    ∃ s', r.2 = .inPlace s' := nomatch e

/-- What the memory holds after a program on k-d trees. -/
structure KDInv (ops : List (Op (KDArgs α) Empty)) (w : World (List α → α) (List (KDTree.Node α))) : Prop where
  own : ∀ n o p, w.objs n = some (o, p) → ∃ a, (constructions ops)[p]? = some a ∧ o = a.nrm
  heap : ∀ (id : Nat) a, (constructions ops)[id]? = some a → ∃ t, KDTree.build a.data a.leafSize = .ok t ∧
    (¬ Bereaved ops id → w.heap[id]? = some t) ∧ (Bereaved ops id → w.heap[id]? = some [])

theorem kd_inv (ops : List (Op (KDArgs α) Empty)) : ∀ w, run kdClass World.empty ops = .ok w → KDInv ops w := by
  induction ops using List.reverseRecOn with
  | nil =>
    intro w h
    cases h
    exact ⟨fun n o p h => by simp [World.empty] at h, fun id a h => by simp [constructions] at h⟩
  | append_singleton ops op ih =>
    intro w h
    obtain ⟨v, hv, hs⟩ := (run_snoc kdClass ops op _ _).mp h
    obtain ⟨h1, h2⟩ := ih v hv
    obtain ⟨a1, a2, a3⟩ := addressed_run kdClass kdClass_inPlace ops v hv
    have keep : ∀ (n m : Nat) (hx : ∃ s, v.objs s = v.objs m) (o : List α → α) (p : Nat),
        v.objs m = some (o, p) → ∃ a, (constructions (ops ++ [op]))[p]? = some a ∧ o = a.nrm := by
      intro n m _ o p hm
      obtain ⟨a, ha, hn⟩ := h1 m o p hm
      refine ⟨a, ?_, hn⟩
      rw [constructions_append, List.getElem?_append_left (List.getElem?_eq_some_iff.mp ha).1]
      exact ha
    cases op with
    | construct n a =>
      simp only [step] at hs
      split at hs
      · cases hs
      · obtain ⟨os, ho, hs⟩ := Res.bind_eq_ok.mp hs
        cases hs
        obtain ⟨t, ht, ho⟩ := Res.bind_eq_ok.mp ho
        cases ho
        have hbe : ∀ id, Bereaved (ops ++ [.construct n a]) id ↔ Bereaved ops id := fun id => by
          rw [bereaved_snoc]; simp
        refine ⟨fun m o p hm => ?_, fun id b hb => ?_⟩
        · dsimp only at hm
          by_cases hmn : m = n
          · subst hmn
            simp only [Function.update_self, Option.some.injEq, Prod.mk.injEq] at hm
            refine ⟨a, ?_, hm.1.symm⟩
            rw [← hm.2, a1]
            simp [constructions]
          · rw [Function.update_of_ne hmn] at hm
            exact keep n m ⟨m, rfl⟩ o p hm
        · rw [hbe]
          rw [constructions_append] at hb
          by_cases hid : id < (constructions ops).length
          · rw [List.getElem?_append_left hid] at hb
            obtain ⟨t', e1, e2, e3⟩ := h2 id b hb
            have : id < v.heap.length := by rw [a1]; exact hid
            exact ⟨t', e1, fun h => by rw [List.getElem?_append_left this]; exact e2 h,
              fun h => by rw [List.getElem?_append_left this]; exact e3 h⟩
          · have hid' : id = (constructions ops).length := by
              have := (List.getElem?_eq_some_iff.mp hb).1
              simp [constructions] at this
              simp only [constructions] at hid
              simp only [constructions]
              omega
            subst hid'
            have hba : b = a := by simpa [constructions] using hb.symm
            subst hba
            refine ⟨t, ht, fun _ => by rw [← a1]; simp, fun h => ?_⟩
            exfalso
            obtain ⟨x, k, y, rfl, hf⟩ := h
            -- a family that does not exist yet has no member
            have hlt : ∀ (q : List (Op (KDArgs α) Empty)) (u : World _ _), run kdClass World.empty q = .ok u → ∀ k i,
                families q k = some i → i < (constructions q).length := by
              intro q u hu k i hi
              obtain ⟨b1, b2, b3⟩ := addressed_run kdClass kdClass_inPlace q u hu
              rw [← b2] at hi
              obtain ⟨z, hz, rfl⟩ := Option.map_eq_some_iff.mp hi
              rw [← b1]
              exact b3 k z hz
            rw [run_append, Res.bind_eq_ok] at hv
            obtain ⟨u, hu, -⟩ := hv
            have := hlt x u hu k _ hf
            rw [constructions_append] at this
            simp only [List.length_append] at this
            omega
    | copy d s =>
      simp only [step] at hs
      split at hs
      · rename_i x hd hx
        cases hs
        have hbe : ∀ id, Bereaved (ops ++ [.copy d s]) id ↔ Bereaved ops id := fun id => by
          rw [bereaved_snoc]; simp
        refine ⟨fun m o p hm => ?_, fun id b hb => ?_⟩
        · dsimp only at hm
          by_cases hmn : m = d
          · subst hmn
            rw [Function.update_self] at hm
            exact keep m s ⟨s, rfl⟩ o p (by rw [hx, hm])
          · rw [Function.update_of_ne hmn] at hm
            exact keep d m ⟨m, rfl⟩ o p hm
        · rw [hbe]
          exact h2 id b (by simpa [constructions_append, constructions] using hb)
      · cases hs
    | assign d s =>
      simp only [step] at hs
      split at hs
      · rename_i x0 x hd hx
        cases hs
        have hbe : ∀ id, Bereaved (ops ++ [.assign d s]) id ↔ Bereaved ops id := fun id => by
          rw [bereaved_snoc]; simp
        refine ⟨fun m o p hm => ?_, fun id b hb => ?_⟩
        · dsimp only at hm
          by_cases hmn : m = d
          · subst hmn
            rw [Function.update_self] at hm
            exact keep m s ⟨s, rfl⟩ o p (by rw [hx, hm])
          · rw [Function.update_of_ne hmn] at hm
            exact keep d m ⟨m, rfl⟩ o p hm
        · rw [hbe]
          exact h2 id b (by simpa [constructions_append, constructions] using hb)
      · cases hs
    | destroy n =>
      simp only [step] at hs
      split at hs
      · cases hs
      · rename_i x hx
        cases hs
        have hfam : families ops n = some x.2 := by rw [← a2, hx]; rfl
        refine ⟨fun m o p hm => ?_, fun id b hb => ?_⟩
        · dsimp only at hm
          by_cases hmn : m = n
          · subst hmn
            simp at hm
          · rw [Function.update_of_ne hmn] at hm
            exact keep n m ⟨m, rfl⟩ o p hm
        · have hb' : (constructions ops)[id]? = some b := by simpa [constructions_append, constructions] using hb
          obtain ⟨t, e1, e2, e3⟩ := h2 id b hb'
          refine ⟨t, e1, fun h => ?_, fun h => ?_⟩
          · rw [bereaved_snoc, not_or] at h
            have hne : x.2 ≠ id := fun e => h.2 ⟨n, rfl, by rw [hfam, e]⟩
            simp only [List.getElem?_modify, if_neg hne]
            simpa using e2 h.1
          · rw [List.getElem?_modify]
            by_cases he : x.2 = id
            · simp only [if_pos he]
              have hlt : id < v.heap.length := by rw [a1]; exact (List.getElem?_eq_some_iff.mp hb').1
              rw [List.getElem?_eq_getElem hlt]
              rfl
            · simp only [if_neg he]
              rw [bereaved_snoc] at h
              rcases h with h | ⟨k, hk, hf⟩
              · simpa using e3 h
              · cases hk
                rw [hfam] at hf
                exact absurd (Option.some.inj hf) he
    | call n e => exact e.elim
end KD

/-! ## Hash trees -/

theorem hashClass_inPlace (e : HashCall) (o : HashOwn) (s : HashTree.Node) (r) (h : hashClass.call e o s = .ok r) :
    ∃ s', r.2 = .inPlace s' := by
  cases e with
  | insert x =>
    obtain ⟨t, -, h⟩ := Res.bind_eq_ok.mp h
    cases h; exact ⟨_, rfl⟩
  | occur x =>
    obtain ⟨t, -, h⟩ := Res.bind_eq_ok.mp h
    cases h; exact ⟨_, rfl⟩
  | report k => cases h; exact ⟨_, rfl⟩

theorem countOps_append (a b : List HashCall) : countOps (a ++ b) = countOps a ++ countOps b := by
  induction a with
  | nil => rfl
  | cons x a ih => cases x <;> simp [countOps, ih]

theorem run_snoc_count (t : HashTree.Tree) (ops : List CountOp) (op : CountOp) :
    t.run (ops ++ [op]) = t.run ops >>= fun u => u.step op := by
  induction ops generalizing t with
  | nil =>
    simp only [List.nil_append, HashTree.Tree.run, Res.bind_ok]
    cases t.step op <;> rfl
  | cons x ops ih =>
    simp only [List.cons_append, HashTree.Tree.run]
    cases h : t.step x with
    | ok u => simp only [Res.bind_ok]; exact ih u
    | throw e => rfl
    | ub => rfl
    | diverge => rfl

/-- Only the root matters for counting; the reports collected so far are carried along. -/
theorem step_own (o : HashOwn) (c : HashTree.Bucket) (root : HashTree.Node) (op : CountOp) (t : HashTree.Tree)
    (h : (o.tree root).step op = .ok t) :
    t.maxLeaf = o.maxLeaf ∧ t.maxChild = o.maxChild ∧ t.collected = o.collected ∧
      (⟨o.maxLeaf, o.maxChild, root, c⟩ : HashTree.Tree).step op = .ok ⟨o.maxLeaf, o.maxChild, t.root, c⟩ := by
  cases op with
  | register s =>
    obtain ⟨r, hr, h⟩ := Res.bind_eq_ok.mp h
    cases h
    refine ⟨rfl, rfl, rfl, ?_⟩
    exact Res.bind_eq_ok.mpr ⟨r, hr, rfl⟩
  | occur s =>
    obtain ⟨r, hr, h⟩ := Res.bind_eq_ok.mp h
    cases h
    refine ⟨rfl, rfl, rfl, ?_⟩
    exact Res.bind_eq_ok.mpr ⟨r, hr, rfl⟩

/-- What the memory holds after a program on hash trees. -/
structure HashInv (ops : List (Op (Nat × Nat) HashCall)) (w : World HashOwn HashTree.Node) : Prop where
  own : ∀ n o p, w.objs n = some (o, p) → (constructions ops)[p]? = some (o.maxLeaf, o.maxChild)
  heap : ∀ (id : Nat) a, (constructions ops)[id]? = some a → ∃ root, w.heap[id]? = some root ∧
    (HashTree.Tree.new a.1 a.2).run (countOps (familyCalls ops id)) = .ok ⟨a.1, a.2, root, []⟩
  future : ∀ id, (constructions ops).length ≤ id → familyCalls ops id = []
  quiet : (∀ n k, Op.call n (.report k) ∉ ops) → ∀ n o p, w.objs n = some (o, p) → o.collected = []

theorem Addressed.family_lt {ops : List (Op γ ε)} {w : World ο σ} (h : Addressed ops w) {n i : Nat} (hi : families ops n = some i) :
    i < (constructions ops).length := by
  rw [← h.address] at hi
  obtain ⟨z, hz, rfl⟩ := Option.map_eq_some_iff.mp hi
  rw [← h.size]
  exact h.bound n z hz

theorem hash_inv (ops : List (Op (Nat × Nat) HashCall)) : ∀ w, run hashClass World.empty ops = .ok w → HashInv ops w := by
  induction ops using List.reverseRecOn with
  | nil =>
    intro w h
    cases h
    exact ⟨fun n o p h => by simp [World.empty] at h, fun id a h => by simp [constructions] at h, fun id _ => rfl,
      fun _ n o p h => by simp [World.empty] at h⟩
  | append_singleton ops op ih =>
    intro w h
    obtain ⟨v, hv, hs⟩ := (run_snoc hashClass ops op _ _).mp h
    obtain ⟨h1, h2, h3, h4⟩ := ih v hv
    have A := addressed_run hashClass hashClass_inPlace ops v hv
    obtain ⟨a1, a2, a3⟩ := A
    have keep : ∀ (p : Nat) (a : Nat × Nat), (constructions ops)[p]? = some a → (constructions (ops ++ [op]))[p]? = some a := by
      intro p a ha
      rw [constructions_append, List.getElem?_append_left (List.getElem?_eq_some_iff.mp ha).1]
      exact ha
    have quietOf : (∀ n k, Op.call n (.report k) ∉ ops ++ [op]) → ∀ n k, Op.call n (.report k) ∉ ops :=
      fun h n k hm => h n k (List.mem_append_left _ hm)
    cases op with
    | construct n a =>
      simp only [step] at hs
      split at hs
      · cases hs
      · cases hs
        have hcalls : ∀ id, familyCalls (ops ++ [Op.construct n a]) id = familyCalls ops id := fun id => by
          rw [familyCalls_snoc]; simp
        refine ⟨fun m o p hm => ?_, fun id b hb => ?_, fun id hid => ?_, fun hq m o p hm => ?_⟩
        · dsimp only at hm
          by_cases hmn : m = n
          · subst hmn
            simp only [Function.update_self, Option.some.injEq, Prod.mk.injEq] at hm
            rw [← hm.2, a1, ← hm.1]
            simp [constructions]
          · rw [Function.update_of_ne hmn] at hm
            exact keep _ _ (h1 m o p hm)
        · rw [hcalls]
          rw [constructions_append] at hb
          by_cases hid : id < (constructions ops).length
          · rw [List.getElem?_append_left hid] at hb
            obtain ⟨root, e1, e2⟩ := h2 id b hb
            exact ⟨root, by rw [List.getElem?_append_left (by rw [a1]; exact hid)]; exact e1, e2⟩
          · have hid' : id = (constructions ops).length := by
              have := (List.getElem?_eq_some_iff.mp hb).1
              simp [constructions] at this
              simp only [constructions] at hid
              simp only [constructions]
              omega
            subst hid'
            have hba : b = a := by simpa [constructions] using hb.symm
            subst hba
            refine ⟨HashTree.Node.empty, by rw [← a1]; simp, ?_⟩
            rw [h3 _ le_rfl]
            rfl
        · rw [hcalls]
          refine h3 id (le_trans ?_ hid)
          simp [constructions]
        · dsimp only at hm
          by_cases hmn : m = n
          · subst hmn
            simp only [Function.update_self, Option.some.injEq, Prod.mk.injEq] at hm
            rw [← hm.1]
          · rw [Function.update_of_ne hmn] at hm
            exact h4 (quietOf hq) m o p hm
    | copy d s =>
      simp only [step] at hs
      split at hs
      · rename_i x hd hx
        cases hs
        have hcalls : ∀ id, familyCalls (ops ++ [Op.copy d s]) id = familyCalls ops id := fun id => by
          rw [familyCalls_snoc]; simp
        have hcons : constructions (ops ++ [Op.copy d s]) = constructions ops := by simp [constructions]
        rw [hcons] at keep
        refine ⟨fun m o p hm => ?_, fun id b hb => ?_, fun id hid => ?_, fun hq m o p hm => ?_⟩
        · rw [hcons]
          dsimp only at hm
          by_cases hmn : m = d
          · subst hmn
            rw [Function.update_self] at hm
            exact h1 s o p (by rw [hx, hm])
          · rw [Function.update_of_ne hmn] at hm
            exact h1 m o p hm
        · rw [hcalls]; rw [hcons] at hb; exact h2 id b hb
        · rw [hcalls]; rw [hcons] at hid; exact h3 id hid
        · dsimp only at hm
          by_cases hmn : m = d
          · subst hmn
            rw [Function.update_self] at hm
            exact h4 (quietOf hq) s o p (by rw [hx, hm])
          · rw [Function.update_of_ne hmn] at hm
            exact h4 (quietOf hq) m o p hm
      · cases hs
    | assign d s =>
      simp only [step] at hs
      split at hs
      · rename_i x0 x hd hx
        cases hs
        have hcalls : ∀ id, familyCalls (ops ++ [Op.assign d s]) id = familyCalls ops id := fun id => by
          rw [familyCalls_snoc]; simp
        have hcons : constructions (ops ++ [Op.assign d s]) = constructions ops := by simp [constructions]
        refine ⟨fun m o p hm => ?_, fun id b hb => ?_, fun id hid => ?_, fun hq m o p hm => ?_⟩
        · rw [hcons]
          dsimp only at hm
          by_cases hmn : m = d
          · subst hmn
            rw [Function.update_self] at hm
            exact h1 s o p (by rw [hx, hm])
          · rw [Function.update_of_ne hmn] at hm
            exact h1 m o p hm
        · rw [hcalls]; rw [hcons] at hb; exact h2 id b hb
        · rw [hcalls]; rw [hcons] at hid; exact h3 id hid
        · dsimp only at hm
          by_cases hmn : m = d
          · subst hmn
            rw [Function.update_self] at hm
            exact h4 (quietOf hq) s o p (by rw [hx, hm])
          · rw [Function.update_of_ne hmn] at hm
            exact h4 (quietOf hq) m o p hm
      · cases hs
    | destroy n =>
      simp only [step] at hs
      split at hs
      · cases hs
      · rename_i x hx
        cases hs
        have hcalls : ∀ id, familyCalls (ops ++ [Op.destroy n]) id = familyCalls ops id := fun id => by
          rw [familyCalls_snoc]; simp
        have hcons : constructions (ops ++ [Op.destroy n]) = constructions ops := by simp [constructions]
        have hsub : ∀ m o p, Function.update v.objs n none m = some (o, p) → v.objs m = some (o, p) := by
          intro m o p hm
          by_cases hmn : m = n
          · subst hmn; simp at hm
          · rwa [Function.update_of_ne hmn] at hm
        refine ⟨fun m o p hm => ?_, fun id b hb => ?_, fun id hid => ?_, fun hq m o p hm => ?_⟩
        · rw [hcons]; exact h1 m o p (hsub m o p hm)
        · rw [hcalls]
          rw [hcons] at hb
          obtain ⟨root, e1, e2⟩ := h2 id b hb
          refine ⟨root, ?_, e2⟩
          simp only [List.getElem?_modify, e1]
          simp [hashClass]
        · rw [hcalls]; rw [hcons] at hid; exact h3 id hid
        · exact h4 (quietOf hq) m o p (hsub m o p hm)
    | call n e =>
      simp only [step] at hs
      split at hs
      · cases hs
      · rename_i x hx
        split at hs
        · cases hs
        · rename_i root hroot
          obtain ⟨r, hr, hs⟩ := Res.bind_eq_ok.mp hs
          obtain ⟨s', hs'⟩ := hashClass_inPlace e x.1 root r hr
          rw [hs'] at hs
          cases hs
          have hfam : families ops n = some x.2 := by rw [← a2, hx]; rfl
          have hown := h1 n x.1 x.2 hx
          have hlt : x.2 < v.heap.length := a3 n x hx
          have hcons : constructions (ops ++ [Op.call n e]) = constructions ops := by simp [constructions]
          have hcalls : ∀ id, familyCalls (ops ++ [Op.call n e]) id = familyCalls ops id ++ if x.2 = id then [e] else [] := by
            intro id
            rw [familyCalls_snoc]
            simp only [hfam, Option.some.injEq]
          obtain ⟨root', g1, g2⟩ := h2 x.2 _ hown
          rw [hroot] at g1
          cases g1
          -- the effect of the call on the members and on the nodes
          have key : r.1.maxLeaf = x.1.maxLeaf ∧ r.1.maxChild = x.1.maxChild ∧
              ((∀ k, e ≠ .report k) → r.1.collected = x.1.collected) ∧
              (HashTree.Tree.new x.1.maxLeaf x.1.maxChild).run (countOps (familyCalls ops x.2 ++ [e])) =
                .ok ⟨x.1.maxLeaf, x.1.maxChild, s', []⟩ := by
            cases e with
            | insert q =>
              obtain ⟨t, ht, hr⟩ := Res.bind_eq_ok.mp hr
              cases hr
              cases hs'
              obtain ⟨b1, b2, b3, b4⟩ := step_own x.1 [] root (.register q) t ht
              refine ⟨b1, b2, fun _ => b3, ?_⟩
              rw [countOps_append, countOps, countOps, run_snoc_count, g2, Res.bind_ok]
              exact b4
            | occur q =>
              obtain ⟨t, ht, hr⟩ := Res.bind_eq_ok.mp hr
              cases hr
              cases hs'
              obtain ⟨b1, b2, b3, b4⟩ := step_own x.1 [] root (.occur q) t ht
              refine ⟨b1, b2, fun _ => b3, ?_⟩
              rw [countOps_append, countOps, countOps, run_snoc_count, g2, Res.bind_ok]
              exact b4
            | report k =>
              cases hr
              cases hs'
              refine ⟨rfl, rfl, fun h => absurd rfl (h k), ?_⟩
              rw [countOps_append, countOps, countOps, List.append_nil, g2]
              rfl
          refine ⟨fun m o p hm => ?_, fun id b hb => ?_, fun id hid => ?_, fun hq m o p hm => ?_⟩
          · rw [hcons]
            dsimp only at hm
            by_cases hmn : m = n
            · subst hmn
              simp only [Function.update_self, Option.some.injEq, Prod.mk.injEq] at hm
              rw [← hm.1, ← hm.2, key.1, key.2.1]
              exact hown
            · rw [Function.update_of_ne hmn] at hm
              exact h1 m o p hm
          · rw [hcons] at hb
            rw [hcalls]
            by_cases he : x.2 = id
            · subst he
              rw [hown] at hb
              cases hb
              refine ⟨s', by simp [hlt], ?_⟩
              rw [if_pos rfl]
              exact key.2.2.2
            · rw [if_neg he, List.append_nil]
              obtain ⟨r2, f1, f2⟩ := h2 id b hb
              exact ⟨r2, by rw [List.getElem?_set_ne he]; exact f1, f2⟩
          · rw [hcons] at hid
            rw [hcalls, h3 id hid, if_neg]
            · rfl
            · intro he
              rw [a1] at hlt
              omega
          · dsimp only at hm
            by_cases hmn : m = n
            · subst hmn
              simp only [Function.update_self, Option.some.injEq, Prod.mk.injEq] at hm
              rw [← hm.1, key.2.2.1 (fun k hk => hq m k (by rw [hk]; simp))]
              exact h4 (quietOf hq) m x.1 x.2 hx
            · rw [Function.update_of_ne hmn] at hm
              exact h4 (quietOf hq) m o p hm

/-! ## Value semantics -/

/-- The state of each object: its own members and the nodes it refers to. -/
def view (w : World ο σ) (n : Nat) : Option (ο × σ) := (w.objs n).bind fun x => (w.heap[x.2]?).map fun s => (x.1, s)

/-- The nodes after a call. -/
def Write.content : Write σ → σ
  | .inPlace s => s
  | .fresh s => s

/-- Every pointer refers to allocated memory. -/
def Valid (w : World ο σ) : Prop := ∀ n x, w.objs n = some x → x.2 < w.heap.length

theorem view_none {w : World ο σ} (hw : Valid w) (n : Nat) : view w n = none ↔ w.objs n = none := by
  constructor
  · intro h
    by_contra hne
    obtain ⟨x, hx⟩ := Option.ne_none_iff_exists'.mp hne
    simp [view, hx, hw n x hx] at h
  · intro h; simp [view, h]

theorem view_some {w : World ο σ} {n : Nat} {x : ο × Nat} {s : σ} (hx : w.objs n = some x) (hs : w.heap[x.2]? = some s) :
    view w n = some (x.1, s) := by simp [view, hx, hs]

/-- Objects whose calls never change nodes in place, and whose destructor leaves the nodes alone, have value semantics. -/
theorem run_view (C : Class γ ε ο σ) (hclean : ∀ s, C.clean s = s)
    (hcall : ∀ e o s r, C.call e o s = .ok r → ∃ s', r.2 = .fresh s') (ops : List (Op γ ε)) :
    ∀ w : World ο σ, Valid w → (run C w ops >>= fun w' => .ok (view w')) =
      valueRun C.init (fun e x => C.call e x.1 x.2 >>= fun r => Res.ok (r.1, r.2.content))
        (view w) ops := by
  induction ops with
  | nil => intro w _; rfl
  | cons op ops ih =>
    intro w hw
    -- one statement
    suffices H : (∃ w', step C w op = .ok w' ∧ Valid w' ∧
          valueStep C.init (fun e x => C.call e x.1 x.2 >>= fun r => Res.ok (r.1, r.2.content))
            (view w) op = .ok (view w')) ∨
        ((∀ w', step C w op ≠ .ok w') ∧ (step C w op >>= fun w' => .ok (view w')) =
          valueStep C.init (fun e x => C.call e x.1 x.2 >>= fun r => Res.ok (r.1, r.2.content))
            (view w) op) by
      rcases H with ⟨w', h1, h2, h3⟩ | ⟨h1, h2⟩
      · simp only [run, valueRun, h1, h3, Res.bind_ok]
        exact ih w' h2
      · simp only [run, valueRun, ← h2]
        cases h : step C w op with
        | ok w' => exact absurd h (h1 w')
        | throw e => rfl
        | ub => rfl
        | diverge => rfl
    have lift : ∀ (n : Nat) (x : ο × Nat) (s : σ), w.heap[x.2]? = some s →
        view (⟨Function.update w.objs n (some x), w.heap⟩ : World ο σ) = Function.update (view w) n (some (x.1, s)) := by
      intro n x s hs
      funext m
      by_cases hm : m = n
      · subst hm; simp [view, hs]
      · simp [view, Function.update_of_ne hm]
    have grow : ∀ (n : Nat) (o : ο) (s : σ),
        view (⟨Function.update w.objs n (some (o, w.heap.length)), w.heap ++ [s]⟩ : World ο σ) =
          Function.update (view w) n (some (o, s)) := by
      intro n o s
      funext m
      by_cases hm : m = n
      · subst hm; simp [view]
      · rw [Function.update_of_ne hm]
        simp only [view, Function.update_of_ne hm]
        cases hx : w.objs m with
        | none => rfl
        | some x => simp [List.getElem?_append_left (hw m x hx)]
    have validGrow : ∀ (n : Nat) (o : ο) (s : σ),
        Valid (⟨Function.update w.objs n (some (o, w.heap.length)), w.heap ++ [s]⟩ : World ο σ) := by
      intro n o s m y hy
      by_cases hm : m = n
      · subst hm
        simp only [Function.update_self, Option.some.injEq] at hy
        subst hy
        simp
      · simp only [Function.update_of_ne hm] at hy
        have := hw m y hy
        simp only [List.length_append]
        omega
    have validCopy : ∀ (n : Nat) (x : ο × Nat), x.2 < w.heap.length →
        Valid (⟨Function.update w.objs n (some x), w.heap⟩ : World ο σ) := by
      intro n x hx m y hy
      by_cases hm : m = n
      · subst hm
        simp only [Function.update_self, Option.some.injEq] at hy
        subst hy
        exact hx
      · simp only [Function.update_of_ne hm] at hy
        exact hw m y hy
    cases op with
    | construct n a =>
      cases hn : w.objs n with
      | some x =>
        have hv : view w n = some (x.1, w.heap[x.2]'(hw n x hn)) := view_some hn (List.getElem?_eq_getElem _)
        exact Or.inr ⟨by simp [step, hn], by simp [step, valueStep, hn, hv]⟩
      | none =>
        have hv : view w n = none := (view_none hw n).mpr hn
        cases hi : C.init a with
        | ok os =>
          exact Or.inl ⟨_, by simp only [step, hn, hi, Res.bind_ok], validGrow n os.1 os.2, by
            simp only [valueStep, hv, hi, Res.bind_ok, grow]⟩
        | throw e => exact Or.inr ⟨by simp [step, hn, hi], by simp [step, valueStep, hn, hv, hi]⟩
        | ub => exact Or.inr ⟨by simp [step, hn, hi], by simp [step, valueStep, hn, hv, hi]⟩
        | diverge => exact Or.inr ⟨by simp [step, hn, hi], by simp [step, valueStep, hn, hv, hi]⟩
    | copy d s =>
      cases hd : w.objs d with
      | some x =>
        have hv : view w d = some (x.1, w.heap[x.2]'(hw d x hd)) := view_some hd (List.getElem?_eq_getElem _)
        exact Or.inr ⟨by simp [step, hd], by simp [step, valueStep, hd, hv]⟩
      | none =>
        have hv : view w d = none := (view_none hw d).mpr hd
        cases hx : w.objs s with
        | none =>
          have hv' : view w s = none := (view_none hw s).mpr hx
          exact Or.inr ⟨by simp [step, hd, hx], by simp [step, valueStep, hd, hv, hx, hv']⟩
        | some x =>
          have hv' : view w s = some (x.1, w.heap[x.2]'(hw s x hx)) := view_some hx (List.getElem?_eq_getElem _)
          exact Or.inl ⟨_, by simp only [step, hd, hx], validCopy d x (hw s x hx), by
            simp only [valueStep, hv, hv', lift d x _ (List.getElem?_eq_getElem (hw s x hx))]⟩
    | assign d s =>
      cases hd : w.objs d with
      | none =>
        have hv : view w d = none := (view_none hw d).mpr hd
        exact Or.inr ⟨by simp [step, hd], by simp [step, valueStep, hd, hv]⟩
      | some x0 =>
        have hv : view w d = some (x0.1, w.heap[x0.2]'(hw d x0 hd)) := view_some hd (List.getElem?_eq_getElem _)
        cases hx : w.objs s with
        | none =>
          have hv' : view w s = none := (view_none hw s).mpr hx
          exact Or.inr ⟨by simp [step, hd, hx], by simp [step, valueStep, hd, hv, hx, hv']⟩
        | some x =>
          have hv' : view w s = some (x.1, w.heap[x.2]'(hw s x hx)) := view_some hx (List.getElem?_eq_getElem _)
          exact Or.inl ⟨_, by simp only [step, hd, hx], validCopy d x (hw s x hx), by
            simp only [valueStep, hv, hv', lift d x _ (List.getElem?_eq_getElem (hw s x hx))]⟩
    | destroy n =>
      cases hn : w.objs n with
      | none =>
        have hv : view w n = none := (view_none hw n).mpr hn
        exact Or.inr ⟨by simp [step, hn], by simp [step, valueStep, hn, hv]⟩
      | some x =>
        have hv : view w n = some (x.1, w.heap[x.2]'(hw n x hn)) := view_some hn (List.getElem?_eq_getElem _)
        have hmod : w.heap.modify x.2 C.clean = w.heap := by
          apply List.ext_getElem?
          intro i
          rw [List.getElem?_modify]
          cases w.heap[i]? <;> simp [hclean]
        refine Or.inl ⟨⟨Function.update w.objs n none, w.heap⟩, by simp only [step, hn, hmod], ?_, ?_⟩
        · intro m y hy
          by_cases hm : m = n
          · subst hm; simp at hy
          · simp only [Function.update_of_ne hm] at hy
            exact hw m y hy
        · simp only [valueStep, hv]
          congr 1
          funext m
          by_cases hm : m = n
          · subst hm; simp [view]
          · simp [view, Function.update_of_ne hm]
    | call n e =>
      cases hn : w.objs n with
      | none =>
        have hv : view w n = none := (view_none hw n).mpr hn
        exact Or.inr ⟨by simp [step, hn], by simp [step, valueStep, hn, hv]⟩
      | some x =>
        have hs : w.heap[x.2]? = some (w.heap[x.2]'(hw n x hn)) := List.getElem?_eq_getElem _
        have hv : view w n = some (x.1, w.heap[x.2]'(hw n x hn)) := view_some hn hs
        generalize w.heap[x.2]'(hw n x hn) = s at hs hv
        cases hc : C.call e x.1 s with
        | ok r =>
          obtain ⟨s', hs'⟩ := hcall e x.1 s r hc
          exact Or.inl ⟨_, by simp only [step, hn, hs, hc, Res.bind_ok, hs'], validGrow n r.1 s', by
            simp only [valueStep, hv, hc, Res.bind_ok, hs', grow, Write.content]⟩
        | throw e => exact Or.inr ⟨by simp [step, hn, hs, hc], by simp [step, valueStep, hn, hs, hv, hc]⟩
        | ub => exact Or.inr ⟨by simp [step, hn, hs, hc], by simp [step, valueStep, hn, hs, hv, hc]⟩
        | diverge => exact Or.inr ⟨by simp [step, hn, hs, hc], by simp [step, valueStep, hn, hs, hv, hc]⟩

theorem deleteTree_eq {α ν : Type} (t : DTree.Tree α ν) : deleteTree t = t := by
  induction t with
  | null => rfl
  | node v s l r hl hr => simp only [deleteTree, discardedMove, hl, hr]

end OpenML.Objects
