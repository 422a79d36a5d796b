import Verif.Spec.Regions
import Verif.Lemmas.Extreme
import Verif.Lemmas.DecisionTree
import Mathlib.Tactic.Linarith
import Mathlib.Tactic.Ring
import Mathlib.Tactic.LinearCombination

/-!
# Lemmas: regions with the same answer
-/

namespace OpenML.Regions

open Spec

section convex

variable {α ι : Type} [Field α] [LinearOrder α] [IsStrictOrderedRing α]

theorem firstMax_mix {t : α} (h0 : 0 ≤ t) (h1 : t ≤ 1) (e : α) {L : List ι} {f g h : ι → α}
    (hh : ∀ i ∈ L, h i = (1 - t) * f i + t * g i + e) {k : Nat} (hf : IsFirstMax (L.map f) k) (hg : IsFirstMax (L.map g) k) :
    IsFirstMax (L.map h) k := by
  obtain ⟨v, hv, hv'⟩ := hf
  obtain ⟨u, hu, hu'⟩ := hg
  rw [List.getElem?_map, Option.map_eq_some_iff] at hv hu
  obtain ⟨i, hi, rfl⟩ := hv
  obtain ⟨i', hi', rfl⟩ := hu
  obtain rfl : i = i' := Option.some.inj (hi.symm.trans hi')
  refine ⟨h i, by rw [List.getElem?_map, hi]; rfl, fun q w hq => ?_⟩
  rw [List.getElem?_map, Option.map_eq_some_iff] at hq
  obtain ⟨j, hj, rfl⟩ := hq
  obtain ⟨a1, a2⟩ := hv' q (f j) (by rw [List.getElem?_map, hj]; rfl)
  obtain ⟨b1, b2⟩ := hu' q (g j) (by rw [List.getElem?_map, hj]; rfl)
  rw [hh i (List.mem_of_getElem? hi), hh j (List.mem_of_getElem? hj)]
  have m1 : 0 ≤ (1 - t) * (f i - f j) := mul_nonneg (by linarith) (by linarith)
  have m2 : 0 ≤ t * (g i - g j) := mul_nonneg h0 (by linarith)
  refine ⟨by nlinarith, fun heq => ?_⟩
  have s1 : (1 - t) * (f i - f j) = 0 := by nlinarith
  have s2 : t * (g i - g j) = 0 := by nlinarith
  rcases mul_eq_zero.mp s1 with z | z
  · rcases mul_eq_zero.mp s2 with z' | z'
    · exfalso
      linarith
    · exact b2 (by linarith)
  · exact a2 (by linarith)

theorem firstMin_iff_neg (L : List ι) (f : ι → α) (k : Nat) : IsFirstMin (L.map f) k ↔ IsFirstMax (L.map fun i => -f i) k := by
  constructor
  · rintro ⟨v, hv, h⟩
    rw [List.getElem?_map, Option.map_eq_some_iff] at hv
    obtain ⟨i, hi, rfl⟩ := hv
    refine ⟨-f i, by rw [List.getElem?_map, hi]; rfl, fun q w hq => ?_⟩
    rw [List.getElem?_map, Option.map_eq_some_iff] at hq
    obtain ⟨j, hj, rfl⟩ := hq
    obtain ⟨a1, a2⟩ := h q (f j) (by rw [List.getElem?_map, hj]; rfl)
    exact ⟨neg_le_neg a1, fun e => a2 (neg_injective e)⟩
  · rintro ⟨v, hv, h⟩
    rw [List.getElem?_map, Option.map_eq_some_iff] at hv
    obtain ⟨i, hi, rfl⟩ := hv
    refine ⟨f i, by rw [List.getElem?_map, hi]; rfl, fun q w hq => ?_⟩
    rw [List.getElem?_map, Option.map_eq_some_iff] at hq
    obtain ⟨j, hj, rfl⟩ := hq
    obtain ⟨a1, a2⟩ := h q (-f j) (by rw [List.getElem?_map, hj]; rfl)
    exact ⟨neg_le_neg_iff.mp a1, fun e => a2 (by rw [e])⟩

theorem firstMax_mono {L : List ι} {f g : ι → α} (h : ∀ i ∈ L, ∀ j ∈ L, (f i ≤ f j → g i ≤ g j) ∧ (g i = g j → f i = f j)) {k : Nat}
    (hf : IsFirstMax (L.map f) k) : IsFirstMax (L.map g) k := by
  obtain ⟨v, hv, hv'⟩ := hf
  rw [List.getElem?_map, Option.map_eq_some_iff] at hv
  obtain ⟨i, hi, rfl⟩ := hv
  refine ⟨g i, by rw [List.getElem?_map, hi]; rfl, fun q w hq => ?_⟩
  rw [List.getElem?_map, Option.map_eq_some_iff] at hq
  obtain ⟨j, hj, rfl⟩ := hq
  obtain ⟨a1, a2⟩ := hv' q (f j) (by rw [List.getElem?_map, hj]; rfl)
  obtain ⟨b1, b2⟩ := h j (List.mem_of_getElem? hj) i (List.mem_of_getElem? hi)
  exact ⟨b1 a1, fun e => a2 (b2 e)⟩

theorem forall₂_get {β γ : Type} {P : β → γ → Prop} {l : List β} {m : List γ} (h : List.Forall₂ P l m) {i : Nat} {a : β} {c : γ}
    (ha : l[i]? = some a) (hc : m[i]? = some c) : P a c := by
  obtain ⟨hi, rfl⟩ := List.getElem?_eq_some_iff.mp ha
  obtain ⟨hi', rfl⟩ := List.getElem?_eq_some_iff.mp hc
  exact h.get hi hi'

theorem forall₂_some {β γ : Type} {P : β → γ → Prop} {l : List β} {m : List γ} (h : List.Forall₂ P l m) {i : Nat} {a : β}
    (ha : l[i]? = some a) : ∃ c, m[i]? = some c ∧ P a c := by
  obtain ⟨hi, rfl⟩ := List.getElem?_eq_some_iff.mp ha
  have hi' : i < m.length := by rw [← h.length_eq]; exact hi
  exact ⟨m[i], List.getElem?_eq_getElem hi', h.get hi hi'⟩

/-- Scores that are affine up to a common offset give convex regions. -/
theorem convex_of_max {L : List ι} {score : List α → ι → α} {rows : List (List α)} {labels : List Nat}
    (H : List.Forall₂ (fun x c => IsFirstMax (L.map (score x)) c) rows labels)
    (hs : ∀ a ∈ rows, ∀ b ∈ rows, ∀ t, 0 ≤ t → t ≤ 1 → ∃ e, ∀ i ∈ L, score (between t a b) i = (1 - t) * score a i + t * score b i + e) :
    ConvexAnswers rows labels := by
  intro i j k a b z c ha hb hz hseg hi hj
  obtain ⟨t, h0, h1, rfl⟩ := hseg
  obtain ⟨e, he⟩ := hs a (List.mem_of_getElem? ha) b (List.mem_of_getElem? hb) t h0 h1
  obtain ⟨c', hc', hm⟩ := forall₂_some H hz
  rw [hc', IsFirstMax.unique (firstMax_mix h0 h1 e he (forall₂_get H ha hi) (forall₂_get H hb hj)) hm]

theorem convex_of_sign {β : Type} {s : List α → α} {rows : List (List α)} (p q : β)
    (hs : ∀ a ∈ rows, ∀ b ∈ rows, ∀ t, 0 ≤ t → t ≤ 1 → s (between t a b) = (1 - t) * s a + t * s b) :
    ConvexAnswers rows (rows.map fun r => if s r > 0 then p else q) := by
  intro i j k a b z c ha hb hz hseg hi hj
  obtain ⟨t, h0, h1, rfl⟩ := hseg
  have he := hs a (List.mem_of_getElem? ha) b (List.mem_of_getElem? hb) t h0 h1
  rw [List.getElem?_map, ha] at hi
  rw [List.getElem?_map, hb] at hj
  rw [List.getElem?_map, hz]
  simp only [Option.map_some, Option.some.injEq] at hi hj ⊢
  rw [he]
  by_cases pa : s a > 0 <;> by_cases pb : s b > 0
  · rw [if_pos, ← hi, if_pos pa]
    rcases h0.lt_or_eq with h | h
    · have := mul_pos h pb
      have := mul_nonneg (sub_nonneg.mpr h1) pa.le
      linarith
    · rw [← h]; linarith
  · rw [if_pos pa] at hi
    rw [if_neg pb] at hj
    subst hi
    rw [hj, ite_self]
  · rw [if_neg pa] at hi
    rw [if_pos pb] at hj
    subst hi
    rw [hj, ite_self]
  · rw [if_neg, ← hi, if_neg pa]
    push Not at pa pb ⊢
    have := mul_nonpos_of_nonneg_of_nonpos h0 pb
    have := mul_nonpos_of_nonneg_of_nonpos (sub_nonneg.mpr h1) pa
    linarith

theorem between_length (t : α) (a b : List α) (h : a.length = b.length) : (between t a b).length = a.length := by
  rw [between, List.length_zipWith, h, min_self]

theorem between_append_one (t : α) (a b : List α) (h : a.length = b.length) : between t a b ++ [1] = between t (a ++ [1]) (b ++ [1]) := by
  rw [between, between, List.zipWith_append h]
  simp

theorem sum_between (t : α) (φ : α → ι → α) (hφ : ∀ u v i, φ ((1 - t) * u + t * v) i = (1 - t) * φ u i + t * φ v i) :
    ∀ (a b : List α) (w : List ι), a.length = b.length →
      (List.zipWith φ (between t a b) w).sum = (1 - t) * (List.zipWith φ a w).sum + t * (List.zipWith φ b w).sum
  | [], [], _, _ => by simp [between]
  | u :: a, v :: b, [], _ => by simp
  | u :: a, v :: b, i :: w, h => by
    have ih := sum_between t φ hφ a b w (by simpa using h)
    simp only [between, List.zipWith_cons_cons, List.sum_cons] at ih ⊢
    rw [ih, hφ]
    ring

end convex

section boxes

variable {α ν : Type} [LinearOrder α]

open DTree

/-- The whole space. -/
def whole : Box α := ⟨fun _ => none, fun _ => none⟩

/-- The part with coordinate `f` at most `t`. -/
def below (B : Box α) (f : Nat) (t : α) : Box α :=
  ⟨B.lo, fun j => if j = f then some (match B.hi f with | none => t | some u => min u t) else B.hi j⟩

/-- The part with coordinate `f` above `t`. -/
def above (B : Box α) (f : Nat) (t : α) : Box α :=
  ⟨fun j => if j = f then some (match B.lo f with | none => t | some u => max u t) else B.lo j, B.hi⟩

theorem contains_below (B : Box α) (f : Nat) (t : α) (x : List α) (a : α) (ha : x[f]? = some a) :
    (below B f t).Contains x ↔ B.Contains x ∧ a ≤ t := by
  constructor
  · intro h
    have hf := (h f a ha).2
    simp only [below, if_true, Option.some.injEq] at hf
    have hf := hf _ rfl
    refine ⟨fun j b hb => ⟨(h j b hb).1, fun u hu => ?_⟩, ?_⟩
    · by_cases e : j = f
      · subst e
        obtain rfl : a = b := Option.some.inj (ha.symm.trans hb)
        rw [hu] at hf
        exact le_trans hf (min_le_left _ _)
      · exact (h j b hb).2 u (by simp only [below, if_neg e]; exact hu)
    · cases e : B.hi f with
      | none => rw [e] at hf; exact hf
      | some u => rw [e] at hf; exact le_trans hf (min_le_right _ _)
  · rintro ⟨h, hat⟩ j b hb
    refine ⟨(h j b hb).1, fun u hu => ?_⟩
    simp only [below] at hu
    split at hu
    · rename_i e
      subst e
      obtain rfl : a = b := Option.some.inj (ha.symm.trans hb)
      obtain rfl := Option.some.inj hu
      cases e : B.hi j with
      | none => exact hat
      | some u => exact le_min ((h j a ha).2 u e) hat
    · exact (h j b hb).2 u hu

theorem contains_above (B : Box α) (f : Nat) (t : α) (x : List α) (a : α) (ha : x[f]? = some a) :
    (above B f t).Contains x ↔ B.Contains x ∧ t < a := by
  constructor
  · intro h
    have hf := (h f a ha).1
    simp only [above, if_true, Option.some.injEq] at hf
    have hf := hf _ rfl
    refine ⟨fun j b hb => ⟨fun u hu => ?_, (h j b hb).2⟩, ?_⟩
    · by_cases e : j = f
      · subst e
        obtain rfl : a = b := Option.some.inj (ha.symm.trans hb)
        rw [hu] at hf
        exact lt_of_le_of_lt (le_max_left _ _) hf
      · exact (h j b hb).1 u (by simp only [above, if_neg e]; exact hu)
    · cases e : B.lo f with
      | none => rw [e] at hf; exact hf
      | some u => rw [e] at hf; exact lt_of_le_of_lt (le_max_right _ _) hf
  · rintro ⟨h, hat⟩ j b hb
    refine ⟨fun u hu => ?_, (h j b hb).2⟩
    simp only [above] at hu
    split at hu
    · rename_i e
      subst e
      obtain rfl : a = b := Option.some.inj (ha.symm.trans hb)
      obtain rfl := Option.some.inj hu
      cases e : B.lo j with
      | none => exact hat
      | some u => exact max_lt ((h j a ha).1 u e) hat
    · exact (h j b hb).1 u hu

/-- The boxes of the leaves, with what the descent gives there. -/
def boxes (d : Nat) : Tree α ν → Box α → List (Box α × Res ν)
  | .null, B => [(B, .ub)]
  | .node v _ .null _, B => [(B, .ok v)]
  | .node _ none (.node _ _ _ _) _, B => [(B, .ub)]
  | .node _ (some (f, t)) (.node v' s' l' r') r, B =>
    if f < d then boxes d (.node v' s' l' r') (below B f t) ++ boxes d r (above B f t) else [(B, .ub)]

/-- Exactly one entry of the list satisfies the predicate. -/
theorem boxes_spec (d : Nat) (x : List α) (hx : x.length = d) (T : Tree α ν) (B : Box α) :
    (B.Contains x → ∃ A C e, boxes d T B = A ++ e :: C ∧ e.1.Contains x ∧ e.2 = route x T ∧
      (∀ e' ∈ A, ¬ e'.1.Contains x) ∧ ∀ e' ∈ C, ¬ e'.1.Contains x) ∧
    (¬ B.Contains x → ∀ e ∈ boxes d T B, ¬ e.1.Contains x) := by
  induction T generalizing B with
  | null =>
    refine ⟨fun h => ⟨[], [], (B, .ub), rfl, h, rfl, by simp, by simp⟩, fun h e he => ?_⟩
    simp only [boxes, List.mem_singleton] at he
    rw [he]; exact h
  | node v s l r ihl ihr =>
    cases l with
    | null =>
      refine ⟨fun h => ⟨[], [], (B, .ok v), rfl, h, by rw [route], by simp, by simp⟩, fun h e he => ?_⟩
      simp only [boxes, List.mem_singleton] at he
      rw [he]; exact h
    | node v' s' l' r' =>
      cases s with
      | none =>
        refine ⟨fun h => ⟨[], [], (B, .ub), rfl, h, by rw [route], by simp, by simp⟩, fun h e he => ?_⟩
        simp only [boxes, List.mem_singleton] at he
        rw [he]; exact h
      | some ft =>
        obtain ⟨f, t⟩ := ft
        rw [boxes]
        split
        · rename_i hf
          have ha : x[f]? = some (x[f]'(by omega)) := List.getElem?_eq_getElem _
          set a := x[f]'(by omega) with hadef
          have hr : route x (.node v (some (f, t)) (.node v' s' l' r') r) =
              if a ≤ t then route x (.node v' s' l' r') else route x r := by
            rw [route, readAt, ha]
            rfl
          obtain ⟨l1, l2⟩ := ihl (below B f t)
          obtain ⟨r1, r2⟩ := ihr (above B f t)
          rw [contains_below B f t x a ha] at l1 l2
          rw [contains_above B f t x a ha] at r1 r2
          refine ⟨fun h => ?_, fun h e he => ?_⟩
          · by_cases hat : a ≤ t
            · obtain ⟨A, C, e, e1, e2, e3, e4, e5⟩ := l1 ⟨h, hat⟩
              refine ⟨A, C ++ boxes d r (above B f t), e, by rw [e1]; simp, e2, by rw [hr, if_pos hat, e3], e4, ?_⟩
              intro e' he'
              rcases List.mem_append.mp he' with h' | h'
              · exact e5 e' h'
              · exact r2 (fun c => absurd hat (not_le.mpr c.2)) e' h'
            · obtain ⟨A, C, e, e1, e2, e3, e4, e5⟩ := r1 ⟨h, not_le.mp hat⟩
              refine ⟨boxes d (.node v' s' l' r') (below B f t) ++ A, C, e, by rw [e1]; simp, e2, by rw [hr, if_neg hat, e3], ?_, e5⟩
              intro e' he'
              rcases List.mem_append.mp he' with h' | h'
              · exact l2 (fun c => absurd c.2 hat) e' h'
              · exact e4 e' h'
          · rcases List.mem_append.mp he with h' | h'
            · exact l2 (fun c => h c.1) e h'
            · exact r2 (fun c => h c.1) e h'
        · rename_i hf
          refine ⟨fun h => ⟨[], [], (B, .ub), rfl, h, ?_, by simp, by simp⟩, fun h e he => ?_⟩
          · rw [route, readAt, List.getElem?_eq_none (by omega)]
            rfl
          · rw [List.mem_singleton] at he
            rw [he]; exact h

theorem boxes_length (d : Nat) (T : Tree α ν) (h : Nat) (hT : ∀ p v, valueAt T p = some v → p.length ≤ h) (B : Box α) :
    (boxes d T B).length ≤ 2 ^ h := by
  induction T generalizing B h with
  | null => exact Nat.one_le_two_pow
  | node v s l r ihl ihr =>
    cases l with
    | null => exact Nat.one_le_two_pow
    | node v' s' l' r' =>
      cases s with
      | none => exact Nat.one_le_two_pow
      | some ft =>
        obtain ⟨f, t⟩ := ft
        rw [boxes]
        split
        · obtain ⟨h, rfl⟩ : ∃ h', h = h' + 1 := by
            have := hT [true] v' rfl
            simp only [List.length_singleton] at this
            exact ⟨h - 1, by omega⟩
          have e1 := ihl h (fun p v hp => by
            have := hT (true :: p) v hp
            simp only [List.length_cons] at this
            omega) (below B f t)
          have e2 := ihr h (fun p v hp => by
            have := hT (false :: p) v hp
            simp only [List.length_cons] at this
            omega) (above B f t)
          rw [List.length_append, pow_succ]
          omega
        · exact Nat.one_le_two_pow

/-- The boxes with a defined answer. -/
def answered {β : Type} (ψ : ν → β) (L : List (Box α × Res ν)) : List (Box α × β) :=
  L.filterMap fun e => match e.2 with | .ok v => some (e.1, ψ v) | _ => none

theorem answered_spec {β : Type} (ψ : ν → β) (d : Nat) (T : Tree α ν) (htot : ∀ x : List α, x.length = d → ∃ v, route x T = .ok v) :
    Divides d (answered ψ (boxes d T whole)) ∧
    ∀ x : List α, x.length = d → ∀ e ∈ answered ψ (boxes d T whole), e.1.Contains x → ∃ v, route x T = .ok v ∧ e.2 = ψ v := by
  have hex : ∀ x : List α, x.length = d → ∃ A C e v, answered ψ (boxes d T whole) = A ++ e :: C ∧ e.1.Contains x ∧
      route x T = .ok v ∧ e.2 = ψ v ∧ (∀ e' ∈ A, ¬ e'.1.Contains x) ∧ ∀ e' ∈ C, ¬ e'.1.Contains x := by
    intro x hx
    obtain ⟨A, C, e, e1, e2, e3, e4, e5⟩ := (boxes_spec d x hx T whole).1 (fun j a _ => ⟨fun l h => (by cases h), fun l h => (by cases h)⟩)
    obtain ⟨v, hv⟩ := htot x hx
    rw [hv] at e3
    have hmem : ∀ L : List (Box α × Res ν), (∀ e' ∈ L, ¬ e'.1.Contains x) → ∀ e' ∈ answered ψ L, ¬ e'.1.Contains x := by
      intro L hL e' he'
      obtain ⟨e0, h0, h1⟩ := List.mem_filterMap.mp he'
      split at h1
      · obtain rfl := Option.some.inj h1
        exact hL e0 h0
      · cases h1
    refine ⟨answered ψ A, answered ψ C, (e.1, ψ v), v, ?_, e2, hv, rfl, hmem A e4, hmem C e5⟩
    rw [e1, answered, List.filterMap_append, List.filterMap_cons, e3]
    rfl
  refine ⟨fun x hx => ?_, fun x hx e he hc => ?_⟩
  · obtain ⟨A, C, e, v, e1, e2, -, -, e4, e5⟩ := hex x hx
    rw [e1]
    refine ⟨⟨A.length, by simp⟩, by simpa using e2, ?_⟩
    rintro ⟨i, hi⟩ hc
    rw [Fin.mk.injEq]
    simp only [List.get_eq_getElem] at hc
    rcases lt_trichotomy i A.length with h | h | h
    · rw [List.getElem_append_left h] at hc
      exact absurd hc (e4 _ (List.getElem_mem h))
    · exact h
    · rw [List.getElem_append_right h.le] at hc
      obtain ⟨k, hk⟩ : ∃ k, i - A.length = k + 1 := ⟨i - A.length - 1, by omega⟩
      simp only [hk, List.getElem_cons_succ] at hc
      exact absurd hc (e5 _ (List.getElem_mem _))
  · obtain ⟨A, C, e0, v, e1, e2, e3, e3', e4, e5⟩ := hex x hx
    rw [e1] at he
    rcases List.mem_append.mp he with h | h
    · exact absurd hc (e4 e h)
    · rcases List.mem_cons.mp h with rfl | h
      · exact ⟨v, e3, e3'⟩
      · exact absurd hc (e5 e h)

end boxes

end OpenML.Regions
