import Verif.Lemmas.AprioriObject
import Verif.Props.Apriori
import Verif.Props.RuleOrder

/-!
# C155: one `Apriori` object used again and again, exceptions caught

Every definition on the path is in `Verif.Model.AprioriObject`; the specification is `Verif.Spec.AprioriObject`.
-/

namespace OpenML

open AprioriObject Apriori HashTree Spec

namespace AprioriObject

theorem added_ordered (q : ℚ) (X : List (List Nat)) (hX : ConsistentlyOrdered X) :
    ListsFrequent X (supportCount X.length q) (added q X) := by
  obtain ⟨e3, e4⟩ := added_spec q X
  refine ⟨e3, fun s c => ?_⟩
  rw [e4]
  constructor
  · rintro ⟨⟨j, M, hM, hs⟩, rfl⟩
    have hf := ((ordered_level hX hM).2 s).mp hs
    have hj := hM.inv.pos
    refine ⟨?_, hf.increasing, hf.occur, hf.frequent, ?_⟩
    · rintro rfl
      have := hf.size
      simp at this; omega
    · rw [occurrences_increasing hX.1 hf.increasing, ite_self]
  · rintro ⟨h1, h2, h3, h4, rfl⟩
    have hpos := List.length_pos_iff.mpr h1
    obtain ⟨k, hk⟩ : ∃ k, s.length = k + 1 := ⟨s.length - 1, by omega⟩
    have hf : IsFrequent X (supportCount X.length q) (k + 1) s := ⟨hk, h2, h3, h4⟩
    obtain ⟨L, hL⟩ := ordered_reach hX k s hf
    exact ⟨⟨k + 1, L, hL, ((ordered_level hX hL).2 s).mpr hf⟩, by rw [occurrences_increasing hX.1 h2, ite_self]⟩

theorem done_iff (q : ℚ) (X : List (List Nat)) :
    done q X = true ↔ ∃ r, Apriori.fitData X (supportCount X.length q) [] = .ok r := by
  unfold done
  simp

theorem failure_eq (q : ℚ) (X : List (List Nat)) (h : done q X = false) :
    Apriori.fitData X (supportCount X.length q) [] = .throw (failure q X) := by
  rw [(done_spec q X).2, h]
  simp

theorem failure_cases (q : ℚ) (X : List (List Nat)) (hX : ConsistentlyOrdered X) (h : done q X = false) :
    failure q X = .runtimeError ∧ (∀ s, ¬ IsFrequent X (supportCount X.length q) 1 s) ∨
    failure q X = .invalidArgument ∧ ∃ s, IsFrequent X (supportCount X.length q) 1 s := by
  have h1 := failure_eq q X h
  have h2 := (C23_ordered X (supportCount X.length q) [] hX).2
  rcases (C23_outcomes X (supportCount X.length q) []).2.2.2 with ⟨r, h3⟩ | h3 | h3
  · rw [h1] at h3; cases h3
  · rw [h1] at h3 h2
    simp only [Res.throw.injEq] at h3 h2
    refine Or.inr ⟨h3, ?_⟩
    by_contra hn
    push Not at hn
    rw [h3] at h2
    exact absurd (h2.mpr hn) (by decide)
  · rw [h1] at h3 h2
    simp only [Res.throw.injEq] at h3 h2
    exact Or.inl ⟨h3, h2.mp h3⟩

theorem lastCount_append (t b : Bucket) (s : List Nat) : lastCount (t ++ b) s = (lastCount b s).or (lastCount t s) := by
  unfold lastCount
  rw [List.reverse_append, List.find?_append]
  cases List.find? (fun e => decide (e.1 = s ∧ 0 < e.2)) b.reverse <;> simp

theorem mem_iff_find {m : Bucket} (hn : (m.map Prod.fst).Nodup) (p : List Nat × Nat) : p ∈ m ↔ find p.1 m = some p.2 := by
  induction m with
  | nil => simp [find]
  | cons e m ih =>
    rw [List.map_cons, List.nodup_cons] at hn
    simp only [find, List.mem_cons]
    by_cases he : e.1 = p.1
    · rw [if_pos he]
      constructor
      · rintro (rfl | h)
        · rfl
        · exact absurd (List.mem_map.mpr ⟨p, h, he.symm⟩) hn.1
      · intro h
        simp only [Option.some.injEq] at h
        exact Or.inl (Prod.ext he.symm h.symm)
    · rw [if_neg he, ← ih hn.2]
      constructor
      · rintro (rfl | h)
        · exact absurd rfl he
        · exact h
      · exact Or.inr

/-- Tables with the same latest counts lead to the same map. -/
theorem frequencyMap_congr {t t' : Bucket} (h : ∀ s, lastCount t s = lastCount t' s) : frequencyMap t = frequencyMap t' := by
  obtain ⟨n1, f1⟩ := frequencyMap_spec t
  obtain ⟨n2, f2⟩ := frequencyMap_spec t'
  have s1 := RuleOrder.frequencyMap_sorted t
  have s2 := RuleOrder.frequencyMap_sorted t'
  rw [List.pairwise_map] at s1 s2
  have hp : (frequencyMap t).Perm (frequencyMap t') := by
    rw [List.perm_ext_iff_of_nodup (List.Nodup.of_map _ n1) (List.Nodup.of_map _ n2)]
    intro p
    rw [mem_iff_find n1, mem_iff_find n2, f1, f2, h]
  exact hp.eq_of_pairwise (fun a b _ _ h1 h2 => absurd (List.lt_trans h1 h2) (List.lt_irrefl _)) s1 s2

theorem drawnFrom_congr (r : ℚ) {t t' : Bucket} (h : ∀ s, lastCount t s = lastCount t' s) : drawnFrom r t = drawnFrom r t' := by
  have h1 := drawnFrom_spec r t
  have h2 := drawnFrom_spec r t'
  unfold Apriori.transformData at h1 h2
  rw [frequencyMap_congr h, h2] at h1
  simpa using h1.symm

theorem mined_append {R : Type} (i : List (List Nat) → Bucket) (c : List (List Nat) → Bool) (d : Bucket → List R)
    (Xs Ys : List (List (List Nat))) (p : Bucket × List R) : mined i c d (Xs ++ Ys) p = mined i c d Ys (mined i c d Xs p) := by
  induction Xs generalizing p with
  | nil => rfl
  | cons X Xs ih => exact ih _

theorem databases_append (ps qs : List Statement) : databases (ps ++ qs) = databases ps ++ databases qs := by
  induction ps with
  | nil => rfl
  | cons p ps ih => cases p <;> simp [databases, ih]

theorem mined_prefix {R : Type} (i : List (List Nat) → Bucket) (c : List (List Nat) → Bool) (d : Bucket → List R)
    (Xs : List (List (List Nat))) (p : Bucket × List R) : p.1 <+: (mined i c d Xs p).1 ∧ p.2 <+: (mined i c d Xs p).2 := by
  induction Xs generalizing p with
  | nil => exact ⟨List.prefix_refl _, List.prefix_refl _⟩
  | cons X Xs ih =>
    obtain ⟨h1, h2⟩ := ih (p.1 ++ i X, if c X then p.2 ++ d (p.1 ++ i X) else p.2)
    refine ⟨(List.prefix_append _ _).trans h1, List.IsPrefix.trans ?_ h2⟩
    dsimp only
    split
    · exact List.prefix_append _ _
    · exact List.prefix_refl _

end AprioriObject

/-- C155, the effect on the members agrees with the model in which an exception ends the history. -/
theorem C155_agrees (X : List (List Nat)) (a : Model) :
    (∀ a', AprioriObject.fitTransform X a = .ok (.ok (), a') ↔ a.fitTransform X = .ok a') ∧
    (∀ e, (∃ a', AprioriObject.fitTransform X a = .ok (.error e, a')) ↔ a.fitTransform X = .throw e) := by
  have h1 := fit_step X a
  have h2 := (done_spec a.minSupport X).2 a.allFrequency
  unfold Model.fitTransform
  cases hd : done a.minSupport X with
  | true =>
    simp only [hd, if_true] at h1 h2
    rw [h1, h2, Res.bind_ok, drawnFrom_spec, Res.bind_ok]
    constructor
    · intro a'
      simp only [Res.ok.injEq, Prod.mk.injEq, true_and, afterFit, hd, if_true]
    · intro e
      simp
  | false =>
    simp only [hd, Bool.false_eq_true, if_false] at h1 h2
    rw [h1, h2]
    constructor
    · intro a'
      constructor
      · intro h; simp at h
      · intro h; cases h
    · intro e
      constructor
      · rintro ⟨a', h⟩
        simp only [Res.ok.injEq, Prod.mk.injEq, Except.error.injEq] at h
        rw [h.1]
        rfl
      · intro h
        have : failure a.minSupport X = e := by cases h; rfl
        exact ⟨_, by rw [this]⟩

/-- C155. A program that goes on using one object, whatever it throws: every database adds its itemsets to the table of the object even if
`fit_transform` throws, rules are drawn from the whole table and appended when it completes, and nothing else changes them. For consistently
ordered databases the itemsets added are exactly the frequent ones with their supports, also if the call throws; it completes iff some size has
exactly one frequent itemset; it throws `runtime_error` if there is no frequent item and else `invalid_argument`. -/
theorem C155_program (q r : ℚ) : ∃ (itemsets : List (List Nat) → Bucket) (completes : List (List Nat) → Bool) (drawn : Bucket → List Rule)
    (exn : List (List Nat) → Exn),
    (∀ X, ConsistentlyOrdered X →
      ListsFrequent X (supportCount X.length q) (itemsets X) ∧
      (completes X = true ↔ HasSingleLevel X (supportCount X.length q)) ∧
      (completes X = false → (exn X = .runtimeError ∧ ∀ s, ¬ IsFrequent X (supportCount X.length q) 1 s) ∨
        (exn X = .invalidArgument ∧ ∃ s, IsFrequent X (supportCount X.length q) 1 s))) ∧
    (∀ table : Bucket, (∀ e ∈ table, e.1.Pairwise (· < ·)) → ∀ ante cons c, (ante, cons, c) ∈ drawn table ↔
      ∃ f cf ca, lastCount table f = some cf ∧ lastCount table ante = some ca ∧ r ≤ c ∧ IsRule f ante cons cf ca c) ∧
    ∀ (conf : ℚ → List Char) (ps : List Statement) (p : Statement) (a : Model), a.minSupport = q → a.minConfidence = r →
      ∃ seen a' x, run conf (ps ++ [p]) a = .ok (seen ++ [x], a') ∧ seen.length = ps.length ∧
        (a'.allFrequency, a'.rules) = mined itemsets completes drawn (databases (ps ++ [p])) (a.allFrequency, a.rules) ∧
        x = match p with
          | .fit X => if completes X then .done else .caught (exn X)
          | .getRules => .rules (mined itemsets completes drawn (databases ps) (a.allFrequency, a.rules)).2
          | .printRules => .text (printRules conf (mined itemsets completes drawn (databases ps) (a.allFrequency, a.rules)).2) := by
  refine ⟨added q, done q, drawnFrom r, failure q, fun X hX => ⟨added_ordered q X hX, ?_, failure_cases q X hX⟩, ?_, ?_⟩
  · rw [done_iff]
    exact (C23_ordered X _ [] hX).1
  · intro table hinc ante cons c
    obtain ⟨rs, h1, h2⟩ := C24_rules table r hinc
    rw [drawnFrom_spec] at h1
    simp only [Res.ok.injEq] at h1
    rw [h1, h2]
  · intro conf ps p a h1 h2
    have len : ∀ (ps : List Statement) (a : Model) (seen : List Seen) (a' : Model), run conf ps a = .ok (seen, a') →
        seen.length = ps.length := by
      intro ps
      induction ps with
      | nil =>
        intro a seen a' h
        simp only [run, Res.ok.injEq, Prod.mk.injEq] at h
        simp [← h.1]
      | cons p ps ih =>
        intro a seen a' h
        rw [run, Res.bind_eq_ok] at h
        obtain ⟨⟨x, b⟩, _, h⟩ := h
        rw [Res.bind_eq_ok] at h
        obtain ⟨⟨ss, b'⟩, h2, h⟩ := h
        simp only [Res.ok.injEq, Prod.mk.injEq] at h
        rw [← h.1, List.length_cons, List.length_cons, ih _ _ _ h2]
    obtain ⟨seen, a', e1, e2, e3, e4⟩ := run_state conf q r ps a h1 h2
    have hstep : ∃ x a'', run conf [p] a' = .ok ([x], a'') ∧
        (a''.allFrequency, a''.rules) = mined (added q) (done q) (drawnFrom r) (databases [p]) (a'.allFrequency, a'.rules) ∧
        x = match p with
          | .fit X => if done q X then .done else .caught (failure q X)
          | .getRules => .rules a'.rules
          | .printRules => .text (printRules conf a'.rules) := by
      cases p with
      | fit X =>
        have h := fit_step X a'
        rw [e2] at h
        cases hd : done q X with
        | true =>
          simp only [hd, if_true] at h
          refine ⟨.done, afterFit X a', by simp [run, step, h], ?_, by simp [hd]⟩
          simp [databases, mined, afterFit, e2, e3, hd]
        | false =>
          simp only [hd, Bool.false_eq_true, if_false] at h
          refine ⟨.caught (failure q X), afterFit X a', by simp [run, step, h], ?_, by simp [hd]⟩
          simp [databases, mined, afterFit, e2, e3, hd]
      | getRules => exact ⟨_, a', by simp [run, step], rfl, rfl⟩
      | printRules => exact ⟨_, a', by simp [run, step], rfl, rfl⟩
    obtain ⟨x, a'', g1, g2, g3⟩ := hstep
    refine ⟨seen, a'', x, run_append conf ps [p] a e1 g1, len _ _ _ _ e1, ?_, ?_⟩
    · rw [databases_append, mined_append, ← e4, g2]
    · rw [← e4, g3]

/-- C155, neither table nor rules ever lose an entry or are reordered: those after a part of a program are the first ones later. -/
theorem C155_grows (conf : ℚ → List Char) (ps qs : List Statement) (a : Model) :
    ∃ seen a' seen' a'', run conf ps a = .ok (seen, a') ∧ run conf (ps ++ qs) a = .ok (seen ++ seen', a'') ∧
      a.allFrequency <+: a'.allFrequency ∧ a'.allFrequency <+: a''.allFrequency ∧ a.rules <+: a'.rules ∧ a'.rules <+: a''.rules := by
  obtain ⟨seen, a', e1, e2, e3, e4⟩ := run_state conf _ _ ps a rfl rfl
  obtain ⟨seen', a'', g1, _, _, g4⟩ := run_state conf _ _ qs a' e2 e3
  have p1 := mined_prefix (added a.minSupport) (done a.minSupport) (drawnFrom a.minConfidence) (databases ps) (a.allFrequency, a.rules)
  have p2 := mined_prefix (added a.minSupport) (done a.minSupport) (drawnFrom a.minConfidence) (databases qs) (a'.allFrequency, a'.rules)
  rw [← e4] at p1
  rw [← g4] at p2
  exact ⟨seen, a', seen', a'', e1, run_append conf ps qs a e1 g1, p1.1, p2.1, p1.2, p2.2⟩

/-- C155, fitting the same data again: after `n` calls that complete, a new object reports the rules of one call `n` times over. -/
theorem C155_repeat (conf : ℚ → List Char) (X : List (List Nat)) (q r : ℚ) (a' : Model)
    (h : (fresh q r).fitTransform X = .ok a') (n : Nat) :
    ∃ seen a'', run conf (List.replicate n (.fit X)) (fresh q r) = .ok (seen, a'') ∧
      a''.rules = (List.replicate n a'.rules).flatten ∧ ∀ x ∈ seen, x = .done := by
  have hd : done q X = true := by
    rw [done_iff]
    unfold Model.fitTransform at h
    rw [Res.bind_eq_ok] at h
    obtain ⟨all, h1, _⟩ := h
    exact ⟨all, h1⟩
  have ha' : a' = afterFit X (fresh q r) := by
    rw [← (C155_agrees X _).1 a', fit_step] at h
    simp only [fresh] at h
    simp only [hd, if_true, Res.ok.injEq, Prod.mk.injEq, true_and] at h
    exact h.symm
  have hrules : a'.rules = drawnFrom r (added q X) := by
    rw [ha']
    simp [afterFit, fresh, hd]
  have key : ∀ n (a : Model), a.minSupport = q → a.minConfidence = r → (∀ s, lastCount (a.allFrequency ++ added q X) s = lastCount (added q X) s) →
      ∃ seen a'', run conf (List.replicate n (.fit X)) a = .ok (seen, a'') ∧
        a''.rules = a.rules ++ (List.replicate n a'.rules).flatten ∧ ∀ x ∈ seen, x = .done := by
    intro n
    induction n with
    | zero => exact fun a _ _ _ => ⟨[], a, rfl, by simp, by simp⟩
    | succ n ih =>
      intro a h1 h2 h3
      have hs : step conf a (.fit X) = .ok (.done, afterFit X a) := by
        simp only [step, fit_step, h1, hd, if_true]
      have hr : (afterFit X a).rules = a.rules ++ a'.rules := by
        simp only [afterFit, h1, h2, hd, if_true]
        rw [drawnFrom_congr r h3, hrules]
      obtain ⟨seen, a'', g1, g2, g3⟩ := ih (afterFit X a) h1 h2 (by
        intro s
        simp only [afterFit, h1]
        rw [lastCount_append, h3]
        cases lastCount (added q X) s <;> rfl)
      refine ⟨.done :: seen, a'', ?_, ?_, by simpa using g3⟩
      · rw [List.replicate_succ, run, hs, Res.bind_ok, g1]
        rfl
      · rw [g2, hr, List.replicate_succ, List.flatten_cons, List.append_assoc]
  obtain ⟨seen, a'', g1, g2, g3⟩ := key n (fresh q r) rfl rfl (by intro s; simp [fresh])
  exact ⟨seen, a'', g1, by simpa [fresh] using g2, g3⟩

/-- C155, what a caught exception leaves behind: if a new object is given `X`, throws, and then completes on `Y`, the caller sees no rule in
between, and afterwards exactly the rules between itemsets that were frequent in either database, with the counts of `Y` for the itemsets frequent
there and those of `X` for the others. -/
theorem C155_stale (conf : ℚ → List Char) (X Y : List (List Nat)) (q r : ℚ) (hX : ConsistentlyOrdered X) (hY : ConsistentlyOrdered Y)
    (hfX : ¬ HasSingleLevel X (supportCount X.length q)) (hfY : HasSingleLevel Y (supportCount Y.length q)) :
    ∃ e rules a, run conf [.fit X, .getRules, .fit Y, .getRules] (fresh q r) = .ok ([.caught e, .rules [], .done, .rules rules], a) ∧
      ∀ ante cons c, (ante, cons, c) ∈ rules ↔ ∃ f cf ca,
        LatestCount X (supportCount X.length q) Y (supportCount Y.length q) f cf ∧
        LatestCount X (supportCount X.length q) Y (supportCount Y.length q) ante ca ∧ r ≤ c ∧ IsRule f ante cons cf ca c := by
  have dX : done q X = false := by
    rw [← Bool.not_eq_true, done_iff, (C23_ordered X _ [] hX).1]
    exact hfX
  have dY : done q Y = true := by
    rw [done_iff, (C23_ordered Y _ [] hY).1]
    exact hfY
  have aX := added_ordered q X hX
  have aY := added_ordered q Y hY
  have s1 : step conf (fresh q r) (.fit X) = .ok (.caught (failure q X), ⟨q, r, added q X, []⟩) := by
    simp [step, fit_step, afterFit, fresh, dX]
  have s2 : step conf ⟨q, r, added q X, []⟩ (.fit Y) =
      .ok (.done, ⟨q, r, added q X ++ added q Y, drawnFrom r (added q X ++ added q Y)⟩) := by
    simp [step, fit_step, afterFit, dY]
  refine ⟨failure q X, drawnFrom r (added q X ++ added q Y), ⟨q, r, added q X ++ added q Y, drawnFrom r (added q X ++ added q Y)⟩, ?_, ?_⟩
  · rw [run, s1, Res.bind_ok, run]
    simp only [step, Res.bind_ok]
    rw [run]
    simp only [s2, Res.bind_ok]
    rfl
  · have one : ∀ (Z : List (List Nat)), ListsFrequent Z (supportCount Z.length q) (added q Z) → ∀ s n, lastCount (added q Z) s = some n ↔
        s ≠ [] ∧ IsFrequent Z (supportCount Z.length q) s.length s ∧ 0 < support Z s ∧ n = support Z s := by
      intro Z hZ s n
      rw [lastCount_eq_find hZ.once, hZ.exact]
      constructor
      · rintro ⟨⟨h1, h2, h3, h4, rfl⟩, h5⟩
        exact ⟨h1, ⟨rfl, h2, h3, h4⟩, h5, rfl⟩
      · rintro ⟨h1, h2, h3, rfl⟩
        exact ⟨⟨h1, h2.increasing, h2.occur, h2.frequent, rfl⟩, h3⟩
    have none_iff : ∀ (Z : List (List Nat)), ListsFrequent Z (supportCount Z.length q) (added q Z) → ∀ s, s ≠ [] →
        (lastCount (added q Z) s = none ↔ ¬ (IsFrequent Z (supportCount Z.length q) s.length s ∧ 0 < support Z s)) := by
      intro Z hZ s hs
      rw [← not_iff_not, not_not, ← ne_eq, Option.ne_none_iff_exists']
      constructor
      · rintro ⟨n, h⟩
        obtain ⟨_, h1, h2, _⟩ := (one Z hZ s n).mp h
        exact ⟨h1, h2⟩
      · rintro ⟨h1, h2⟩
        exact ⟨support Z s, (one Z hZ s _).mpr ⟨hs, h1, h2, rfl⟩⟩
    have both : ∀ s, s ≠ [] → ∀ n, lastCount (added q X ++ added q Y) s = some n ↔
        LatestCount X (supportCount X.length q) Y (supportCount Y.length q) s n := by
      intro s hs n
      rw [lastCount_append]
      unfold LatestCount
      cases h : lastCount (added q Y) s with
      | none =>
        rw [Option.none_or, one X aX]
        have h' := (none_iff Y aY s hs).mp h
        constructor
        · rintro ⟨_, h1, h2, rfl⟩
          exact ⟨h2, Or.inr ⟨h', h1, rfl⟩⟩
        · rintro ⟨h0, ⟨h1, h2, _⟩ | ⟨_, h1, rfl⟩⟩
          · exact absurd ⟨h1, h2⟩ h'
          · exact ⟨hs, h1, h0, rfl⟩
      | some m =>
        rw [Option.some_or, Option.some.injEq]
        obtain ⟨_, h1, h2, rfl⟩ := (one Y aY s m).mp h
        constructor
        · rintro rfl
          exact ⟨h2, Or.inl ⟨h1, h2, rfl⟩⟩
        · rintro ⟨h0, ⟨_, _, rfl⟩ | ⟨h3, _⟩⟩
          · rfl
          · exact absurd ⟨h1, h2⟩ h3
    intro ante cons c
    obtain ⟨rs, h1, h2⟩ := C24_rules (added q X ++ added q Y) r (by
      intro e he
      rw [List.mem_append] at he
      rcases he with he | he
      · exact ((aX.exact e.1 e.2).mp he).2.1
      · exact ((aY.exact e.1 e.2).mp he).2.1)
    rw [drawnFrom_spec] at h1
    simp only [Res.ok.injEq] at h1
    rw [h1, h2]
    have hne : ∀ {f cf ca}, IsRule f ante cons cf ca c → f ≠ [] := by
      rintro f cf ca h rfl
      exact h.nonempty (List.sublist_nil.mp h.part)
    constructor
    · rintro ⟨f, cf, ca, h3, h4, h5, h6⟩
      exact ⟨f, cf, ca, (both f (hne h6) cf).mp h3, (both ante h6.nonempty ca).mp h4, h5, h6⟩
    · rintro ⟨f, cf, ca, h3, h4, h5, h6⟩
      exact ⟨f, cf, ca, (both f (hne h6) cf).mpr h3, (both ante h6.nonempty ca).mpr h4, h5, h6⟩

namespace AprioriObject

theorem digits_clean (v : Nat) : ∀ c ∈ Nat.toDigits 10 v, c.isDigit = true := fun _ hc =>
  Nat.isDigit_of_mem_toDigits (by decide) (by decide) hc

theorem digits_injective {v w : Nat} (h : Nat.toDigits 10 v = Nat.toDigits 10 w) : v = w := by
  have h1 := Nat.ofDigitChars_toDigits (b := 10) (n := v) (by decide) (by decide)
  rw [h, Nat.ofDigitChars_toDigits (by decide) (by decide)] at h1
  exact h1.symm

theorem no_comma (v : Nat) : ',' ∉ Nat.toDigits 10 v := fun h => absurd (digits_clean v _ h) (by decide)

theorem no_newline_items (l : List Nat) : '\n' ∉ printItems l := by
  unfold printItems
  rw [List.mem_flatMap]
  rintro ⟨v, _, hv⟩
  rw [List.mem_append] at hv
  rcases hv with hv | hv
  · exact absurd (digits_clean v _ hv) (by decide)
  · exact absurd hv (by decide)

/-- Splitting at the first occurrence of a character. -/
theorem split_first {α : Type} {c : α} {u v s t : List α} (hu : c ∉ u) (hv : c ∉ v) (h : u ++ c :: s = v ++ c :: t) : u = v ∧ s = t := by
  induction u generalizing v with
  | nil =>
    cases v with
    | nil => simpa using h
    | cons x v =>
      rw [List.nil_append, List.cons_append, List.cons.injEq] at h
      exact absurd (h.1 ▸ List.mem_cons_self) hv
  | cons x u ih =>
    cases v with
    | nil =>
      rw [List.nil_append, List.cons_append, List.cons.injEq] at h
      exact absurd (h.1 ▸ List.mem_cons_self) hu
    | cons y v =>
      rw [List.cons_append, List.cons_append, List.cons.injEq] at h
      obtain ⟨h1, h2⟩ := ih (fun h => hu (List.mem_cons_of_mem _ h)) (fun h => hv (List.mem_cons_of_mem _ h)) h.2
      exact ⟨by rw [h.1, h1], h2⟩

theorem head_digit (v : Nat) (s : List Char) : ∃ c t, Nat.toDigits 10 v ++ s = c :: t ∧ c.isDigit = true := by
  cases h : Nat.toDigits 10 v with
  | nil => exact absurd h Nat.toDigits_ne_nil
  | cons c t => exact ⟨c, t ++ s, rfl, digits_clean v c (by rw [h]; exact List.mem_cons_self)⟩

/-- A list of items is recovered from its text, which ends before the first blank that follows no comma. -/
theorem items_injective {l m : List Nat} {s t : List Char} (h : printItems l ++ ' ' :: s = printItems m ++ ' ' :: t) : l = m ∧ s = t := by
  induction l generalizing m with
  | nil =>
    cases m with
    | nil => simpa [printItems] using h
    | cons w m =>
      simp only [printItems, List.flatMap_nil, List.nil_append, List.flatMap_cons, List.append_assoc] at h
      obtain ⟨c, u, h1, h2⟩ := head_digit w ([',', ' '] ++ (List.flatMap (fun v => Nat.toDigits 10 v ++ [',', ' ']) m ++ ' ' :: t))
      rw [h1, List.cons.injEq] at h
      rw [← h.1] at h2
      exact absurd h2 (by decide)
  | cons v l ih =>
    cases m with
    | nil =>
      simp only [printItems, List.flatMap_nil, List.nil_append, List.flatMap_cons, List.append_assoc] at h
      obtain ⟨c, u, h1, h2⟩ := head_digit v ([',', ' '] ++ (List.flatMap (fun v => Nat.toDigits 10 v ++ [',', ' ']) l ++ ' ' :: s))
      rw [h1, List.cons.injEq] at h
      rw [h.1] at h2
      exact absurd h2 (by decide)
    | cons w m =>
      simp only [printItems, List.flatMap_cons, List.append_assoc, List.cons_append, List.nil_append] at h
      obtain ⟨h1, h2⟩ := split_first (no_comma v) (no_comma w) h
      rw [List.cons.injEq] at h2
      obtain ⟨h3, h4⟩ := ih h2.2
      exact ⟨by rw [digits_injective h1, h3], h4⟩

theorem line_injective {conf : ℚ → List Char} (hconf : ∀ c, '\n' ∉ conf c) {r r' : Rule} {s t : List Char}
    (h : printRule conf r ++ s = printRule conf r' ++ t) : (r.1 = r'.1 ∧ r.2.1 = r'.2.1 ∧ conf r.2.2 = conf r'.2.2) ∧ s = t := by
  unfold printRule at h
  simp only [List.append_assoc, String.reduceToList, List.cons_append, List.nil_append] at h
  obtain ⟨h1, h⟩ := items_injective h
  simp only [List.cons.injEq, true_and] at h
  obtain ⟨h2, h⟩ := items_injective h
  simp only [List.cons.injEq, true_and] at h
  obtain ⟨h3, h⟩ := split_first (hconf _) (hconf _) h
  exact ⟨⟨h1, h2, h3⟩, h⟩

end AprioriObject

/-- C155, `print_rules` writes one line per rule, in the order of `get_rules`, as long as the text of a number has no line break. -/
theorem C155_lines (conf : ℚ → List Char) (hconf : ∀ c, '\n' ∉ conf c) (rs : List Rule) :
    (printRules conf rs).count '\n' = rs.length ∧
    ∃ lines : List (List Char), lines.length = rs.length ∧ (∀ l ∈ lines, '\n' ∉ l) ∧
      printRules conf rs = lines.flatMap (· ++ ['\n']) := by
  have hline : ∀ r : Rule, ∃ l, '\n' ∉ l ∧ printRule conf r = l ++ ['\n'] := by
    intro r
    refine ⟨printItems r.1 ++ " ==> ".toList ++ printItems r.2.1 ++ " confidence = ".toList ++ conf r.2.2, ?_, rfl⟩
    simp only [List.mem_append, not_or]
    exact ⟨⟨⟨⟨no_newline_items _, by decide⟩, no_newline_items _⟩, by decide⟩, hconf _⟩
  have hlines : ∃ lines : List (List Char), lines.length = rs.length ∧ (∀ l ∈ lines, '\n' ∉ l) ∧
      printRules conf rs = lines.flatMap (· ++ ['\n']) := by
    induction rs with
    | nil => exact ⟨[], rfl, by simp, rfl⟩
    | cons r rs ih =>
      obtain ⟨lines, h1, h2, h3⟩ := ih
      obtain ⟨l, h4, h5⟩ := hline r
      refine ⟨l :: lines, by simp [h1], by simpa using ⟨h4, h2⟩, ?_⟩
      unfold printRules at h3 ⊢
      rw [List.flatMap_cons, List.flatMap_cons, h3, h5]
  refine ⟨?_, hlines⟩
  obtain ⟨lines, h1, h2, h3⟩ := hlines
  rw [h3, ← h1]
  clear h1 h3
  induction lines with
  | nil => rfl
  | cons l lines ih =>
    rw [List.flatMap_cons, List.count_append, ih fun l hl => h2 l (List.mem_cons_of_mem _ hl), List.count_append,
      List.count_eq_zero_of_not_mem (h2 l List.mem_cons_self)]
    simp
    omega

/-- C155, the printed text determines the rules: two lists of rules that print alike have the same number of rules, and in each place the same
antecedent, the same consequent and a confidence with the same text. -/
theorem C155_text (conf : ℚ → List Char) (hconf : ∀ c, '\n' ∉ conf c) (rs rs' : List Rule)
    (h : printRules conf rs = printRules conf rs') :
    rs.map (fun r => (r.1, r.2.1, conf r.2.2)) = rs'.map fun r => (r.1, r.2.1, conf r.2.2) := by
  have hne : ∀ r : Rule, ∀ s, printRule conf r ++ s ≠ [] := by
    intro r s
    simp [printRule]
  unfold printRules at h
  induction rs generalizing rs' with
  | nil =>
    cases rs' with
    | nil => rfl
    | cons r' rs' => exact absurd h.symm (hne r' _)
  | cons r rs ih =>
    cases rs' with
    | nil => exact absurd h (hne r _)
    | cons r' rs' =>
      rw [List.flatMap_cons, List.flatMap_cons] at h
      obtain ⟨⟨h1, h2, h3⟩, h4⟩ := line_injective hconf h
      rw [List.map_cons, List.map_cons, ih rs' h4, h1, h2, h3]

/-! ## Examples -/

namespace AprioriObject

/-- Six baskets on which the search throws at half of the baskets: two pairs are frequent, no triple is. -/
abbrev sixBaskets : List (List Nat) := [[1, 2], [1, 2], [1, 2], [1, 3], [1, 3], [1, 3]]

/-- Two baskets with one item. -/
abbrev twoBaskets : List (List Nat) := [[1], [1]]

theorem sixBaskets_throws : ¬ HasSingleLevel sixBaskets (supportCount 6 (1 / 2)) := by
  have h : Apriori.fitData sixBaskets (supportCount 6 (1 / 2)) [] = .throw .invalidArgument := by decide +kernel
  intro hs
  obtain ⟨r, hr⟩ := (C23_ordered sixBaskets _ [] (by decide)).1.mpr hs
  rw [h] at hr
  cases hr

theorem twoBaskets_completes : HasSingleLevel twoBaskets (supportCount 2 (1 / 2)) :=
  (C23_ordered twoBaskets _ [] (by decide)).1.mp
    ⟨[([1], 2)], by decide +kernel⟩

end AprioriObject

/-- Beside C155_stale and C155_program: both databases are consistently ordered. -/
example : ConsistentlyOrdered sixBaskets ∧ ConsistentlyOrdered twoBaskets := by decide

/-- C155, confidences above one: there are databases `X` and `Y` such that a new object that has thrown on `X` and then completes on `Y` reports a
rule with a confidence above one about items that do not occur in `Y`. -/
theorem C155_confidence_above_one (conf : ℚ → List Char) : ∃ (X Y : List (List Nat)) (q r : ℚ) (e : Exn) (rules : List Rule) (a : Model),
    ConsistentlyOrdered X ∧ ConsistentlyOrdered Y ∧
    run conf [.fit X, .getRules, .fit Y, .getRules] (fresh q r) = .ok ([.caught e, .rules [], .done, .rules rules], a) ∧
    ∃ ante cons c, (ante, cons, c) ∈ rules ∧ 1 < c ∧ cons ≠ [] ∧ ∀ v ∈ cons, ∀ t ∈ Y, v ∉ t := by
  obtain ⟨e, rules, a, h1, h2⟩ := C155_stale conf sixBaskets twoBaskets (1 / 2) (9 / 10) (by decide) (by decide) sixBaskets_throws
    twoBaskets_completes
  refine ⟨sixBaskets, twoBaskets, 1 / 2, 9 / 10, e, rules, a, by decide, by decide, h1, [1], [2], 3 / 2, ?_, by norm_num, by simp, by decide⟩
  have t6 : supportCount sixBaskets.length (1 / 2) = 3 := by decide +kernel
  have t2 : supportCount twoBaskets.length (1 / 2) = 1 := by decide +kernel
  rw [h2, t6, t2]
  refine ⟨[1, 2], 3, 2, ⟨by decide, Or.inr ⟨?_, ⟨rfl, by decide, by unfold ItemsOccur; decide, by decide⟩, by decide⟩⟩,
    ⟨by decide, Or.inl ⟨⟨rfl, by decide, by unfold ItemsOccur; decide, by decide⟩, by decide, by decide⟩⟩, by norm_num,
    ⟨by decide, by simp, by simp, by decide, ?_, by norm_num⟩⟩
  · rintro ⟨_, h⟩
    exact absurd h (by decide)
  · intro x
    simp
    omega

/-- Beside C155_repeat: a database on which a new object completes. -/
example : ∃ a', (fresh (1 / 2) 1).fitTransform [[1, 2], [1, 2], [1, 3], [1], [4]] = .ok a' ∧ a'.rules = [([2], [1], 1)] := by
  have h1 : Apriori.fitData [[1, 2], [1, 2], [1, 3], [1], [4]] (supportCount 5 (1 / 2)) [] = .ok [([1], 4), ([2], 2), ([1, 2], 2)] := by
    decide +kernel
  have h2 : Apriori.transformData [([1], 4), ([2], 2), ([1, 2], 2)] 1 = .ok [([2], [1], 1)] := by decide +kernel
  refine ⟨⟨1 / 2, 1, [([1], 4), ([2], 2), ([1, 2], 2)], [([2], [1], 1)]⟩, ?_, rfl⟩
  unfold Model.fitTransform fresh
  dsimp only [List.length_cons, List.length_nil]
  rw [h1, Res.bind_ok, h2]
  rfl

/-- Beside C155_lines and C155_text: a printed rule. -/
example : printRules (fun c => if c = 1 then ['1'] else ['?']) [([2, 10], [1], 1), ([3], [], 1 / 2)] =
    "2, 10,  ==> 1,  confidence = 1\n3,  ==>  confidence = ?\n".toList := by decide +kernel

example : ∀ c : ℚ, '\n' ∉ (fun c : ℚ => if c = 1 then ['1'] else ['?']) c := by
  intro c
  by_cases h : c = 1 <;> simp [h]

end OpenML
