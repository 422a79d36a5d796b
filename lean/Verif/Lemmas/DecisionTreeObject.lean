import Verif.Spec.DecisionTreeObject
import Verif.Props.DecisionTree
import Verif.Lemmas.MapRes
import Verif.Lemmas.Extreme

/-!
# Lemmas for programs with a tree object
-/

namespace OpenML.DTreeObject

open DTree Spec

set_option linter.unusedSectionVars false

variable {α : Type} [Field α] [LinearOrder α] {R : Type} [LinearOrder R] {ν ν' : Type}

/-- `build_tree` without the tree of a failed call. -/
theorem build_grow (A : Algo α ν R) (P : Params R) (fuel : Nat) (X : DMat α) (y : List α) (depth : Nat) :
    build A P fuel X y depth = (do
      let r ← grow A P fuel X y depth
      match r.2 with
      | none => .ok r.1
      | some e => .throw e) := by
  induction fuel generalizing X y depth with
  | zero => rfl
  | succ fuel ih =>
    rw [build, grow]
    cases A.nodeValue y with
    | throw e => rfl
    | ub => rfl
    | diverge => rfl
    | ok v =>
      simp only [Res.bind_ok]
      by_cases h1 : A.stop y = true
      · rw [if_pos h1, if_pos h1]; rfl
      rw [if_neg h1, if_neg h1]
      by_cases h2 : X.nrows < P.minSplit
      · rw [if_pos h2, if_pos h2]; rfl
      rw [if_neg h2, if_neg h2]
      by_cases h3 : P.maxDepth < depth
      · rw [if_pos h3, if_pos h3]; rfl
      rw [if_neg h3, if_neg h3]
      cases bestSplit A.start A.impurity X y with
      | throw e => rfl
      | ub => rfl
      | diverge => rfl
      | ok b =>
        rw [Res.bind_ok]
        dsimp only
        cases b.split with
        | none => rfl
        | some ft =>
          obtain ⟨f, t⟩ := ft
          dsimp only
          by_cases h4 : b.impurity ≤ P.minDecrease
          · rw [if_pos h4, if_pos h4]; rfl
          rw [if_neg h4, if_neg h4]
          cases mapRes (readAt X.rows) (selected (X.col f) fun a => decide (a ≤ t)) with
          | throw e => rfl
          | ub => rfl
          | diverge => rfl
          | ok lX =>
          cases mapRes (readAt y) (selected (X.col f) fun a => decide (a ≤ t)) with
          | throw e => rfl
          | ub => rfl
          | diverge => rfl
          | ok ly =>
          cases mapRes (readAt X.rows) (selected (X.col f) fun a => decide (t < a)) with
          | throw e => rfl
          | ub => rfl
          | diverge => rfl
          | ok rX =>
          cases mapRes (readAt y) (selected (X.col f) fun a => decide (t < a)) with
          | throw e => rfl
          | ub => rfl
          | diverge => rfl
          | ok ry =>
          simp only [Res.bind_ok]
          have side : ∀ (c : Prop) [Decidable c] (Z : DMat α) (z : List α),
              (if c then build A P fuel Z z (depth + 1) else .ok .null) = (do
                let r ← (if c then grow A P fuel Z z (depth + 1) else .ok (.null, none))
                match r.2 with
                | none => .ok r.1
                | some e => .throw e) := by
            intro c _ Z z
            split
            · exact ih Z z _
            · rfl
          have lift : ∀ {β γ : Type} (c : Prop) [Decidable c] (a b : Res β) (k : β → Res γ),
              (if c then a >>= k else b >>= k) = ((if c then a else b) >>= k) := by
            intro β γ c _ a b k
            split <;> rfl
          refine Eq.trans (lift _ _ (.ok (DTree.Tree.null : DTree.Tree α ν)) _) ?_
          refine Eq.trans (b := (do
            let l ← (if P.minLeaf ≤ lX.length then build A P fuel ⟨X.ncols, lX⟩ ly (depth + 1) else .ok .null)
            let r ← (if P.minLeaf ≤ rX.length then build A P fuel ⟨X.ncols, rX⟩ ry (depth + 1) else .ok .null)
            .ok (DTree.Tree.node v (some (f, t)) l r))) ?_ ?_
          · congr 1
            funext l
            exact lift _ _ (.ok (DTree.Tree.null : DTree.Tree α ν)) _
          rw [side, side]
          generalize (if P.minLeaf ≤ lX.length then grow A P fuel ⟨X.ncols, lX⟩ ly (depth + 1) else .ok (.null, none)) = L
          generalize (if P.minLeaf ≤ rX.length then grow A P fuel ⟨X.ncols, rX⟩ ry (depth + 1) else .ok (.null, none)) = S
          cases L with
          | throw e => rfl
          | ub => rfl
          | diverge => rfl
          | ok l =>
            obtain ⟨T, e⟩ := l
            cases e with
            | some e => rfl
            | none =>
              simp only [Res.bind_ok]
              cases S with
              | throw e => rfl
              | ub => rfl
              | diverge => rfl
              | ok r =>
                obtain ⟨T', e'⟩ := r
                cases e' <;> rfl

/-- Other values at the same nodes. -/
def mapValue (g : ν → ν') : Tree α ν → Tree α ν'
  | .null => .null
  | .node v s l r => .node (g v) s (mapValue g l) (mapValue g r)

/-- The algorithm that keeps the labels themselves. -/
def keeping (A : Algo α ν R) : Algo α (List α) R := ⟨.ok, A.stop, A.impurity, A.start⟩

/-- The values do not influence the shape. -/
theorem grow_map (A : Algo α ν R) (g : List α → ν) (hA : ∀ y, A.nodeValue y = .ok (g y)) (P : Params R) (fuel : Nat) (X : DMat α)
    (y : List α) (depth : Nat) :
    grow A P fuel X y depth = (do
      let r ← grow (keeping A) P fuel X y depth
      .ok (mapValue g r.1, r.2)) := by
  induction fuel generalizing X y depth with
  | zero => rfl
  | succ fuel ih =>
    rw [grow, grow, hA]
    have hk : (keeping A).nodeValue y = .ok y := rfl
    rw [hk]
    simp only [Res.bind_ok]
    show _ = (Res.bind (if A.stop y = true then _ else _) _)
    by_cases h1 : A.stop y = true
    · rw [if_pos h1, if_pos h1]; rfl
    rw [if_neg h1, if_neg h1]
    by_cases h2 : X.nrows < P.minSplit
    · rw [if_pos h2, if_pos h2]; rfl
    rw [if_neg h2, if_neg h2]
    by_cases h3 : P.maxDepth < depth
    · rw [if_pos h3, if_pos h3]; rfl
    rw [if_neg h3, if_neg h3]
    have hb : bestSplit (keeping A).start (keeping A).impurity X y = bestSplit A.start A.impurity X y := rfl
    rw [hb]
    cases bestSplit A.start A.impurity X y with
    | throw e => rfl
    | ub => rfl
    | diverge => rfl
    | ok b =>
      dsimp only
      cases b.split with
      | none => rfl
      | some ft =>
        obtain ⟨f, t⟩ := ft
        dsimp only
        by_cases h4 : b.impurity ≤ P.minDecrease
        · rw [if_pos h4, if_pos h4]; rfl
        rw [if_neg h4, if_neg h4]
        cases mapRes (readAt X.rows) (selected (X.col f) fun a => decide (a ≤ t)) with
        | throw e => rfl
        | ub => rfl
        | diverge => rfl
        | ok lX =>
        cases mapRes (readAt y) (selected (X.col f) fun a => decide (a ≤ t)) with
        | throw e => rfl
        | ub => rfl
        | diverge => rfl
        | ok ly =>
        cases mapRes (readAt X.rows) (selected (X.col f) fun a => decide (t < a)) with
        | throw e => rfl
        | ub => rfl
        | diverge => rfl
        | ok rX =>
        cases mapRes (readAt y) (selected (X.col f) fun a => decide (t < a)) with
        | throw e => rfl
        | ub => rfl
        | diverge => rfl
        | ok ry =>
        simp only [Res.bind_ok]
        have side : ∀ (c : Prop) [Decidable c] (Z : DMat α) (z : List α),
            (if c then grow A P fuel Z z (depth + 1) else .ok (.null, none)) = (do
              let r ← (if c then grow (keeping A) P fuel Z z (depth + 1) else .ok (.null, none))
              .ok (mapValue g r.1, r.2)) := by
          intro c _ Z z
          split
          · exact ih Z z _
          · rfl
        rw [side, side]
        generalize (if P.minLeaf ≤ lX.length then grow (keeping A) P fuel ⟨X.ncols, lX⟩ ly (depth + 1) else .ok (.null, none)) = L
        generalize (if P.minLeaf ≤ rX.length then grow (keeping A) P fuel ⟨X.ncols, rX⟩ ry (depth + 1) else .ok (.null, none)) = S
        cases L with
        | throw e => rfl
        | ub => rfl
        | diverge => rfl
        | ok l =>
          obtain ⟨T, e⟩ := l
          cases e with
          | some e => rfl
          | none =>
            cases S with
            | throw e => rfl
            | ub => rfl
            | diverge => rfl
            | ok r => rfl

theorem route_map (g : ν → ν') (x : List α) (T : Tree α ν) : route x (mapValue g T) = (do let v ← route x T; .ok (g v)) := by
  induction T with
  | null => rfl
  | node v s l r ihl ihr =>
    cases l with
    | null => rfl
    | node v' s' l' r' =>
      cases s with
      | none => rfl
      | some ft =>
        obtain ⟨f, t⟩ := ft
        have e1 : route x (.node v (some (f, t)) (.node v' s' l' r') r) = (do
          let a ← readAt x f
          if a ≤ t then route x (.node v' s' l' r') else route x r) := rfl
        have e2 : route x (mapValue g (.node v (some (f, t)) (.node v' s' l' r') r)) = (do
          let a ← readAt x f
          if a ≤ t then route x (mapValue g (.node v' s' l' r')) else route x (mapValue g r)) := rfl
        rw [e1, e2]
        cases readAt x f with
        | throw e => rfl
        | ub => rfl
        | diverge => rfl
        | ok a =>
          simp only [Res.bind_ok]
          split
          · exact ihl
          · exact ihr

/-- The values of all nodes. -/
def values : Tree α ν → List ν
  | .null => []
  | .node v _ l r => v :: (values l ++ values r)

theorem route_mem (x : List α) (T : Tree α ν) (v : ν) (h : route x T = .ok v) : v ∈ values T := by
  induction T with
  | null => cases h
  | node w s l r ihl ihr =>
    cases l with
    | null =>
      have : route x (.node w s .null r) = .ok w := by cases s <;> rfl
      rw [this] at h
      cases h
      simp [values]
    | node v' s' l' r' =>
      cases s with
      | none => cases h
      | some ft =>
        obtain ⟨f, t⟩ := ft
        have e1 : route x (.node w (some (f, t)) (.node v' s' l' r') r) = (do
          let a ← readAt x f
          if a ≤ t then route x (.node v' s' l' r') else route x r) := rfl
        rw [e1, Res.bind_eq_ok] at h
        obtain ⟨a, -, h⟩ := h
        rw [values, List.mem_cons, List.mem_append]
        split at h
        · exact .inr (.inl (ihl h))
        · exact .inr (.inr (ihr h))

theorem mem_gather {β : Type} (l : List β) (is : List Nat) (bs : List β) (h : mapRes (readAt l) is = .ok bs) : ∀ b ∈ bs, b ∈ l := by
  rw [mapRes_ok_iff] at h
  induction h with
  | nil => simp
  | cons h _ ih =>
    intro b hb
    rcases List.mem_cons.mp hb with rfl | hb
    · unfold readAt at h
      split at h
      · cases h
        rename_i h
        exact List.mem_of_getElem? h
      · cases h
    · exact ih b hb

/-- The labels at a node are labels of the training data. -/
theorem grow_values (A : Algo α ν R) (P : Params R) (fuel : Nat) (X : DMat α) (y : List α) (depth : Nat) (T : Tree α (List α))
    (e : Option Exn) (h : grow (keeping A) P fuel X y depth = .ok (T, e)) : ∀ L ∈ values T, ∀ a ∈ L, a ∈ y := by
  induction fuel generalizing X y depth T e with
  | zero => cases h
  | succ fuel ih =>
    have leaf : ∀ L ∈ values (DTree.Tree.node y none .null .null : DTree.Tree α (List α)), ∀ a ∈ L, a ∈ y := by
      intro L hL a ha
      simp only [values, List.append_nil, List.mem_singleton] at hL
      rw [hL] at ha
      exact ha
    rw [grow] at h
    have hk : (keeping A).nodeValue y = .ok y := rfl
    rw [hk, Res.bind_ok] at h
    split at h
    · cases h; exact leaf
    split at h
    · cases h; exact leaf
    split at h
    · cases h; exact leaf
    split at h
    · cases h; exact leaf
    · cases h
    · cases h
    split at h
    · cases h; exact leaf
    split at h
    · cases h; exact leaf
    simp only [Res.bind_eq_ok] at h
    obtain ⟨lX, -, ly, hly, rX, -, ry, hry, ⟨l, el⟩, hl, h⟩ := h
    have hL : ∀ L ∈ values l, ∀ a ∈ L, a ∈ y := by
      split at hl
      · intro L hL a ha
        exact mem_gather _ _ _ hly a (ih _ _ _ _ _ hl L hL a ha)
      · cases hl; simp [values]
    split at h
    · cases h
      intro L hL' a ha
      simp only [values, List.append_nil, List.mem_cons] at hL'
      rcases hL' with rfl | hL'
      · exact ha
      · exact hL L hL' a ha
    · rw [Res.bind_eq_ok] at h
      obtain ⟨⟨r, er⟩, hr, h⟩ := h
      cases h
      intro L hL' a ha
      simp only [values, List.mem_cons, List.mem_append] at hL'
      rcases hL' with rfl | hL' | hL'
      · exact ha
      · exact hL L hL' a ha
      · split at hr
        · exact mem_gather _ _ _ hry a (ih _ _ _ _ _ hr L hL' a ha)
        · cases hr; simp [values] at hL'

/-- A node is there. -/
theorem grow_node (A : Algo α ν R) (P : Params R) (fuel : Nat) (X : DMat α) (y : List α) (depth : Nat) (T : Tree α ν)
    (e : Option Exn) (h : grow A P fuel X y depth = .ok (T, e)) : ∃ v s l r, T = .node v s l r ∧ A.nodeValue y = .ok v := by
  cases fuel with
  | zero => cases h
  | succ fuel =>
    rw [grow, Res.bind_eq_ok] at h
    obtain ⟨v, hv, h⟩ := h
    rw [hv]
    split at h
    · cases h; exact ⟨_, _, _, _, rfl, rfl⟩
    split at h
    · cases h; exact ⟨_, _, _, _, rfl, rfl⟩
    split at h
    · cases h; exact ⟨_, _, _, _, rfl, rfl⟩
    split at h
    · cases h; exact ⟨_, _, _, _, rfl, rfl⟩
    · cases h
    · cases h
    split at h
    · cases h; exact ⟨_, _, _, _, rfl, rfl⟩
    split at h
    · cases h; exact ⟨_, _, _, _, rfl, rfl⟩
    simp only [Res.bind_eq_ok] at h
    obtain ⟨lX, -, ly, hly, rX, -, ry, hry, ⟨l, el⟩, hl, h⟩ := h
    split at h
    · cases h; exact ⟨_, _, _, _, rfl, rfl⟩
    · rw [Res.bind_eq_ok] at h
      obtain ⟨⟨r, er⟩, hr, h⟩ := h
      cases h; exact ⟨_, _, _, _, rfl, rfl⟩

theorem tryThresholds_unknown (X : DMat α) (y : List α) (f : Nat) (ts : List α) (b b' : Best α R)
    (h : tryThresholds unknownScore X y f ts b = .ok b') : b' = b := by
  cases ts with
  | nil => cases h; rfl
  | cons t ts =>
    rw [tryThresholds] at h
    simp only [Res.bind_eq_ok] at h
    obtain ⟨_, -, _, -, _, -, _, h, -⟩ := h
    cases h

theorem tryFeatures_unknown (X : DMat α) (y : List α) (fs : List Nat) (b b' : Best α R)
    (h : tryFeatures unknownScore X y fs b = .ok b') : b' = b := by
  induction fs generalizing b with
  | nil => cases h; rfl
  | cons f fs ih =>
    rw [tryFeatures] at h
    simp only [Res.bind_eq_ok] at h
    obtain ⟨ts, -, b1, h1, h⟩ := h
    rw [ih _ h, tryThresholds_unknown X y f ts b b1 h1]

/-- With an unknown criterion the tree consists of its root. -/
theorem grow_unknown (A : Algo α ν R) (hA : A.impurity = unknownScore) (P : Params R) (fuel : Nat) (X : DMat α) (y : List α)
    (depth : Nat) (T : Tree α ν) (e : Option Exn) (h : grow A P fuel X y depth = .ok (T, e)) :
    ∃ v, A.nodeValue y = .ok v ∧ T = .node v none .null .null := by
  cases fuel with
  | zero => cases h
  | succ fuel =>
    rw [grow, Res.bind_eq_ok] at h
    obtain ⟨v, hv, h⟩ := h
    rw [hv]
    refine ⟨v, rfl, ?_⟩
    split at h
    · cases h; rfl
    split at h
    · cases h; rfl
    split at h
    · cases h; rfl
    split at h
    · cases h; rfl
    · cases h
    · cases h
    · rename_i b hb
      rw [hA] at hb
      have : b.split = none := by rw [tryFeatures_unknown X y _ _ _ hb]
      rw [this] at h
      cases h
      rfl

/-- Equal sets have equal lists of classes. -/
theorem isClasses_eq {K K' x : List α} (h : IsClasses K x) (h' : IsClasses K' x) : K = K' := by
  have hp : K.Perm K' := (List.perm_ext_iff_of_nodup (h.1.imp fun h => h.ne) (h'.1.imp fun h => h.ne)).mpr fun a => by
    rw [h.2, h'.2]
  exact hp.eq_of_pairwise (fun a b _ _ h1 h2 => absurd h1 h2.asymm) h.1 h'.1

theorem keys_isClasses (x : List α) : IsClasses (Impurity.keys x) x := ⟨Impurity.keys_sorted x, Impurity.mem_keys x⟩

section programs

variable {σ Q A : Type}

theorem run_append (C : Class α σ Q A) (cs es : List (Call α Q)) (o : σ) :
    run C o (cs ++ es) = (do let r ← run C o cs; let t ← run C r.1 es; .ok (t.1, r.2 ++ t.2)) := by
  induction cs generalizing o with
  | nil =>
    rw [List.nil_append, run, Res.bind_ok]
    dsimp only
    cases run C o es <;> rfl
  | cons c cs ih =>
    rw [List.cons_append, run, run]
    cases step C o c with
    | ok r =>
      rw [Res.bind_ok, Res.bind_ok, ih]
      cases run C r.1 cs with
      | ok q =>
        simp only [Res.bind_ok]
        cases run C q.1 es <;> rfl
      | throw e => rfl
      | ub => rfl
      | diverge => rfl
    | throw e => rfl
    | ub => rfl
    | diverge => rfl

theorem program_snoc {C : Class α σ Q A} {cs : List (Call α Q)} {c : Call α Q} {seen : List (Seen A)} :
    program C (cs ++ [c]) = .ok seen ↔
    ∃ o seen1 o2 s, run C C.new cs = .ok (o, seen1) ∧ step C o c = .ok (o2, s) ∧ seen = seen1 ++ [s] := by
  unfold program
  rw [run_append, Res.bind_eq_ok]
  constructor
  · rintro ⟨r, h, h'⟩
    rw [Res.bind_eq_ok] at h
    obtain ⟨⟨o, seen1⟩, h1, h2⟩ := h
    rw [Res.bind_eq_ok] at h2
    obtain ⟨t, h2, h3⟩ := h2
    rw [run, Res.bind_eq_ok] at h2
    obtain ⟨⟨o2, s⟩, h2, h4⟩ := h2
    cases h4
    cases h3
    cases h'
    exact ⟨o, seen1, o2, s, h1, h2, rfl⟩
  · rintro ⟨o, seen1, o2, s, h1, h2, rfl⟩
    refine ⟨(o2, seen1 ++ [s]), ?_, rfl⟩
    rw [h1, Res.bind_ok, run, h2]
    rfl

theorem run_snoc {C : Class α σ Q A} {cs : List (Call α Q)} {c : Call α Q} {o2 : σ} {seen : List (Seen A)}
    (h : run C C.new (cs ++ [c]) = .ok (o2, seen)) :
    ∃ o seen1 s, run C C.new cs = .ok (o, seen1) ∧ step C o c = .ok (o2, s) := by
  rw [run_append, Res.bind_eq_ok] at h
  obtain ⟨⟨o, seen1⟩, h1, h2⟩ := h
  rw [Res.bind_eq_ok] at h2
  obtain ⟨t, h2, h3⟩ := h2
  rw [run, Res.bind_eq_ok] at h2
  obtain ⟨⟨o2, s⟩, h2, h4⟩ := h2
  cases h4
  cases h3
  exact ⟨o, seen1, s, h1, h2⟩

omit [Field α] [LinearOrder α] in
theorem lastTreeData_snoc (cs : List (Call α Q)) (X : DMat α) (y : List α) : LastTreeData (cs ++ [.fit X y]) X y :=
  ⟨cs, [], rfl, by simp⟩

omit [Field α] [LinearOrder α] in
theorem lastTreeData_ask {cs : List (Call α Q)} {X : DMat α} {y : List α} (h : LastTreeData cs X y) (q : Q) :
    LastTreeData (cs ++ [.ask q]) X y := by
  obtain ⟨b, a, rfl, h⟩ := h
  refine ⟨b, a ++ [.ask q], by simp, ?_⟩
  intro c hc
  rcases List.mem_append.mp hc with hc | hc
  · exact h c hc
  · rw [List.mem_singleton.mp hc]
    rintro ⟨X, y, h⟩
    cases h

/-- What holds after the last `fit` holds at the end. -/
theorem run_last (C : Class α σ Q A) (cs : List (Call α Q)) (o : σ) (seen : List (Seen A)) (h : run C C.new cs = .ok (o, seen)) :
    (o = C.new ∧ ∀ c ∈ cs, ¬ FitsTree c) ∨
    ∃ X y b o1 seen1 e, LastTreeData cs X y ∧ allTargets cs = allTargets b ++ y ∧ (∀ c ∈ b, c ∈ cs) ∧ run C C.new b = .ok (o1, seen1) ∧
      C.fit o1 X y = .ok (o, e) := by
  induction cs using List.reverseRecOn generalizing o seen with
  | nil => cases h; exact .inl ⟨rfl, by simp⟩
  | append_singleton cs c ih =>
    obtain ⟨o1, seen1, s, h1, h2⟩ := run_snoc h
    cases c with
    | fit X y =>
      rw [step, Res.bind_eq_ok] at h2
      obtain ⟨⟨o3, e⟩, h2, h3⟩ := h2
      cases h3
      exact .inr ⟨X, y, cs, o1, seen1, e, lastTreeData_snoc cs X y, by simp [allTargets], fun c hc => by simp [hc], h1, h2⟩
    | ask q =>
      have ho : o = o1 := by
        rw [step] at h2
        split at h2 <;> cases h2 <;> rfl
      subst ho
      rcases ih o seen1 h1 with ⟨h3, h4⟩ | ⟨X, y, b, o1, seen2, e, h3, h4, h5, h6, h7⟩
      · refine .inl ⟨h3, ?_⟩
        intro c hc
        rcases List.mem_append.mp hc with hc | hc
        · exact h4 c hc
        · rw [List.mem_singleton.mp hc]
          rintro ⟨X, y, h⟩
          cases h
      · exact .inr ⟨X, y, b, o1, seen2, e, lastTreeData_ask h3 q, by rw [← h4]; simp [allTargets], fun c hc => by simp [h5 c hc], h6, h7⟩

end programs

theorem read_all (y : List α) (n : Nat) (h : y.length = n) : mapRes (readAt y) (List.range n) = .ok y := by
  rw [Lists.mapRes_readAt y _ fun i hi => by rw [h]; exact List.mem_range.mp hi, ← h]
  congr 1
  exact Lists.filterMap_idx_range y

end OpenML.DTreeObject
