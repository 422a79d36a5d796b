import Verif.Lemmas.DecisionTreeRounded
import Mathlib.Data.List.Dedup

/-!
# Lemmas about decision trees: two functions for the thresholds
-/

set_option linter.unusedSectionVars false

namespace OpenML.DTree
open Spec

variable {α : Type} [Field α] [LinearOrder α] [IsStrictOrderedRing α] {R : Type} [LinearOrder R] {ν : Type}

/-- Neighbours of a list. -/
def pairs (s : List α) : List (α × α) := s.zip s.tail

theorem midpointsBy_eq (mid : α → α → α) (s : List α) : midpointsBy mid s = (pairs s).map fun q => mid q.1 q.2 := by
  induction s with
  | nil => rfl
  | cons a s ih =>
    cases s with
    | nil => rfl
    | cons b s =>
      rw [midpointsBy, ih]
      rfl

/-- The function separates different values and keeps equal ones. -/
structure Sep (mid : α → α → α) (V : α → Prop) : Prop where
  same : ∀ a, V a → mid a a = a
  left : ∀ a b, V a → V b → a < b → a < mid a b
  right : ∀ a b, V a → V b → a < b → mid a b < b

theorem Sep.le_left {mid : α → α → α} {V : α → Prop} (h : Sep mid V) {a b : α} (ha : V a) (hb : V b) (hab : a ≤ b) : a ≤ mid a b := by
  rcases hab.eq_or_lt with rfl | hlt
  · exact (h.same a ha).ge
  · exact (h.left a b ha hb hlt).le

theorem Sep.le_right {mid : α → α → α} {V : α → Prop} (h : Sep mid V) {a b : α} (ha : V a) (hb : V b) (hab : a ≤ b) : mid a b ≤ b := by
  rcases hab.eq_or_lt with rfl | hlt
  · exact (h.same a ha).le
  · exact (h.right a b ha hb hlt).le

theorem pairs_sorted (s : List α) (h : s.Pairwise (· ≤ ·)) :
    (pairs s).Pairwise fun p q => p.1 ≤ p.2 ∧ p.2 ≤ q.1 ∧ q.1 ≤ q.2 := by
  induction s with
  | nil => simp [pairs]
  | cons a s ih =>
    cases s with
    | nil => simp [pairs]
    | cons b s =>
      have e : pairs (a :: b :: s) = (a, b) :: pairs (b :: s) := rfl
      rw [e, List.pairwise_cons]
      rw [List.pairwise_cons] at h
      refine ⟨?_, ih h.2⟩
      intro q hq
      have h1 := List.of_mem_zip hq
      have hb : ∀ v ∈ b :: s, b ≤ v := by
        intro v hv
        rcases List.mem_cons.mp hv with rfl | hv
        · exact le_rfl
        · exact (List.pairwise_cons.mp h.2).1 v hv
      refine ⟨h.1 b (by simp), hb _ h1.1, ?_⟩
      clear ih e h1
      generalize b :: s = u at *
      obtain ⟨i, hi, rfl⟩ := List.mem_iff_getElem.mp hq
      simp only [pairs, List.getElem_zip, List.getElem_tail]
      exact List.pairwise_iff_getElem.mp h.2 _ _ _ _ (by omega)

theorem mem_pairs {s : List α} {q : α × α} (h : q ∈ pairs s) : q.1 ∈ s ∧ q.2 ∈ s :=
  ⟨(List.of_mem_zip h).1, List.mem_of_mem_tail (List.of_mem_zip h).2⟩

theorem pairs_le {s : List α} (h : s.Pairwise (· ≤ ·)) {q : α × α} (hq : q ∈ pairs s) :
    q.1 ≤ q.2 ∧ ∀ v ∈ s, v ≤ q.1 ∨ q.2 ≤ v := by
  obtain ⟨i, hi, rfl⟩ := List.mem_iff_getElem.mp hq
  simp only [pairs, List.getElem_zip, List.getElem_tail]
  have hl : i + 1 < s.length := by
    simp only [pairs, List.length_zip, List.length_tail] at hi
    omega
  refine ⟨List.pairwise_iff_getElem.mp h _ _ _ _ (by omega), ?_⟩
  intro v hv
  obtain ⟨j, hj, rfl⟩ := List.mem_iff_getElem.mp hv
  rcases Nat.lt_or_ge i j with hij | hij
  · right
    rcases Nat.eq_or_lt_of_le (show i + 1 ≤ j by omega) with h1 | h1
    · simp only [h1, le_refl]
    · exact List.pairwise_iff_getElem.mp h _ _ _ _ h1
  · left
    rcases Nat.eq_or_lt_of_le hij with h1 | h1
    · simp only [h1, le_refl]
    · exact List.pairwise_iff_getElem.mp h _ _ _ _ h1

/-- The candidate thresholds of a column come from its different pairs of neighbours, in their order. -/
theorem thresholdsBy_pairs (mid : α → α → α) (V : α → Prop) (hm : Sep mid V) (c : List α) (hc : ∀ a ∈ c, V a) (h3 : 3 ≤ c.length) :
    thresholdsBy mid c = .ok ((pairs (c.insertionSort (· ≤ ·))).dedup.map fun q => mid q.1 q.2) := by
  obtain ⟨ts, h1, h2, -, h4⟩ := thresholds_okBy mid c h3
  rw [h1]
  congr 1
  set s := c.insertionSort (· ≤ ·) with hs
  have hss : s.Pairwise (· ≤ ·) := List.pairwise_insertionSort _ _
  have hV : ∀ a ∈ s, V a := fun a ha => hc a ((List.perm_insertionSort _ c).mem_iff.mp ha)
  have hp : ((pairs s).dedup.map fun q => mid q.1 q.2).Pairwise (· < ·) := by
    rw [List.pairwise_map]
    have h5 := ((pairs_sorted s hss).sublist (List.dedup_sublist _)).and (List.nodup_dedup (pairs s))
    refine List.Pairwise.imp_of_mem ?_ h5
    rintro ⟨a, b⟩ ⟨b', d⟩ hp hq ⟨⟨e1, e2, e3⟩, e4⟩
    have m1 := mem_pairs (List.mem_dedup.mp hp)
    have m2 := mem_pairs (List.mem_dedup.mp hq)
    simp only at e1 e2 e3 m1 m2 ⊢
    have u1 := hm.le_right (hV _ m1.1) (hV _ m1.2) e1
    have u2 := hm.le_left (hV _ m2.1) (hV _ m2.2) e3
    rcases e2.eq_or_lt with rfl | hlt
    · rcases e1.eq_or_lt with rfl | h6
      · rcases e3.eq_or_lt with rfl | h7
        · exact absurd rfl e4
        · exact u1.trans_lt (hm.left _ _ (hV _ m2.1) (hV _ m2.2) h7)
      · exact (hm.right _ _ (hV _ m1.1) (hV _ m1.2) h6).trans_le u2
    · exact (u1.trans_lt hlt).trans_le u2
  refine List.Perm.eq_of_pairwise (le := (· ≤ ·)) (fun a b _ _ => le_antisymm) (h2.imp le_of_lt) (hp.imp le_of_lt) ?_
  refine (List.perm_ext_iff_of_nodup (h2.imp ne_of_lt) (hp.imp ne_of_lt)).mpr fun t => ?_
  rw [h4, ← mem_midpointsBy mid, midpointsBy_eq, List.mem_map, List.mem_map]
  simp only [List.mem_dedup]

theorem thresholdsBy_nil (mid : α → α → α) : thresholdsBy mid ([] : List α) = thresholdsBy (fun a _ => a) [] := by
  unfold thresholdsBy
  cases h : KDTree.argsortVec ([] : List α) with
  | ok r =>
    simp only [Res.bind_ok]
    cases r with
    | nil => rfl
    | cons i r =>
      have : mapRes (readAt ([] : List α)) (i :: r) = .ub := by simp [mapRes, readAt]
      rw [this]
      rfl
  | _ => rfl

/-- Two calls end in the same way, with related results. -/
def ResSim {β γ : Type} (Q : β → γ → Prop) : Res β → Res γ → Prop
  | .ok a, .ok b => Q a b
  | .throw e, .throw e' => e = e'
  | .ub, .ub => True
  | .diverge, .diverge => True
  | _, _ => False

theorem ResSim.bind {β γ β' γ' : Type} {Q : β → γ → Prop} {Q' : β' → γ' → Prop} {r : Res β} {s : Res γ} {f : β → Res β'}
    {g : γ → Res γ'} (h : ResSim Q r s) (hf : ∀ a b, r = .ok a → s = .ok b → Q a b → ResSim Q' (f a) (g b)) :
    ResSim Q' (r >>= f) (s >>= g) := by
  cases r <;> cases s <;> first | exact hf _ _ rfl rfl h | exact h | exact False.elim h

theorem ResSim.refl {β : Type} {Q : β → β → Prop} (r : Res β) (h : ∀ a, r = .ok a → Q a a) : ResSim Q r r := by
  cases r with
  | ok a => exact h a rfl
  | _ => trivial

variable (m m' : α → α → α) (V : Nat → α → Prop)

/-- The two best splits come from the same pair of neighbours. -/
def BestSim (X : DMat α) (b b' : Best α R) : Prop :=
  b.impurity = b'.impurity ∧ ((b.split = none ∧ b'.split = none) ∨ ∃ f a c, f < X.ncols ∧ (a, c) ∈ pairs ((X.col f).insertionSort (· ≤ ·)) ∧
    b.split = some (f, m a c) ∧ b'.split = some (f, m' a c))

section
variable {m m' V}
variable (hm : ∀ f, Sep m (V f)) (hm' : ∀ f, Sep m' (V f))
include hm hm'

theorem same_side {f : Nat} {s : List α} (hs : s.Pairwise (· ≤ ·)) (hV : ∀ a ∈ s, V f a) {a c : α} (h : (a, c) ∈ pairs s) {v : α}
    (hv : v ∈ s) : v ≤ m a c ↔ v ≤ m' a c := by
  obtain ⟨h1, h2⟩ := pairs_le hs h
  have hmem := mem_pairs h
  simp only at h1 h2 hmem
  have ha := hV _ hmem.1
  have hc := hV _ hmem.2
  rcases h1.eq_or_lt with rfl | hlt
  · rw [(hm f).same a ha, (hm' f).same a ha]
  · rcases h2 v hv with h3 | h3
    · exact iff_of_true (h3.trans ((hm f).le_left ha hc h1)) (h3.trans ((hm' f).le_left ha hc h1))
    · exact iff_of_false (not_le.mpr (((hm f).right _ _ ha hc hlt).trans_le h3))
        (not_le.mpr (((hm' f).right _ _ ha hc hlt).trans_le h3))

variable (imp : List α → List α → List α → Res R) (X : DMat α) (hx : X.WF) (y : List α) (hy : y.length = X.nrows)
  (hX : ∀ f, ∀ a ∈ X.col f, V f a)

include hX in
omit [IsStrictOrderedRing α] in
theorem sorted_V (f : Nat) : ∀ a ∈ (X.col f).insertionSort (· ≤ ·), V f a := fun a ha =>
  hX f a ((List.perm_insertionSort _ _).mem_iff.mp ha)

include hX in
theorem same_col {f : Nat} {a c : α} (h : (a, c) ∈ pairs ((X.col f).insertionSort (· ≤ ·))) {v : α} (hv : v ∈ X.col f) :
    v ≤ m a c ↔ v ≤ m' a c :=
  same_side hm hm' (List.pairwise_insertionSort _ _) (fun a ha => hX f a ((List.perm_insertionSort _ _).mem_iff.mp ha)) h
    ((List.perm_insertionSort _ _).mem_iff.mpr hv)

omit [Field α] [IsStrictOrderedRing α] hm hm' in
theorem mem_col_of {X : DMat α} {f : Nat} {x : List α} (h : x ∈ X.rows) {a : α} (ha : x[f]? = some a) : a ∈ X.col f :=
  List.mem_filterMap.mpr ⟨x, h, ha⟩

include hX in
theorem part_same {f : Nat} {a c : α} (h : (a, c) ∈ pairs ((X.col f).insertionSort (· ≤ ·))) :
    (part X y f fun v => decide (v ≤ m a c)) = (part X y f fun v => decide (v ≤ m' a c)) ∧
    (part X y f fun v => decide (m a c < v)) = (part X y f fun v => decide (m' a c < v)) := by
  constructor
  all_goals
    unfold part
    apply List.filter_congr
    intro e he
    unfold side
    cases hv : e.1[f]? with
    | none => rfl
    | some v =>
      have := same_col hm hm' X hX h (mem_col_of (List.of_mem_zip he).1 hv)
      simp only [this, ← not_le]

include hx hy hX in
theorem tryThresholds_sim (f : Nat) (hf : f < X.ncols) (D : List (α × α)) (hD : ∀ q ∈ D, q ∈ pairs ((X.col f).insertionSort (· ≤ ·)))
    (b b' : Best α R) (h : BestSim m m' X b b') :
    ResSim (BestSim m m' X) (tryThresholds imp X y f (D.map fun q => m q.1 q.2) b)
      (tryThresholds imp X y f (D.map fun q => m' q.1 q.2) b') := by
  induction D generalizing b b' with
  | nil => exact h
  | cons q D ih =>
    rw [List.map_cons, List.map_cons, tryThresholds_cons imp X hx y hy f hf, tryThresholds_cons imp X hx y hy f hf]
    have hq := hD q (by simp)
    have hsame := part_same hm hm' X y hX (a := q.1) (c := q.2) hq
    have : score imp X y f (m q.1 q.2) = score imp X y f (m' q.1 q.2) := by
      simp only [score, hsame]
    rw [this]
    refine ResSim.bind (ResSim.refl (Q := Eq) _ fun _ _ => rfl) ?_
    rintro v _ - - rfl
    refine ih (fun p hp => hD p (by simp [hp])) _ _ ?_
    by_cases hlt : b.impurity < v
    · rw [if_pos hlt, if_pos (by rw [← h.1]; exact hlt)]
      exact ⟨rfl, Or.inr ⟨f, q.1, q.2, hf, hq, rfl, rfl⟩⟩
    · rw [if_neg hlt, if_neg (by rw [← h.1]; exact hlt)]
      exact h

include hx hy hX in
theorem tryFeatures_sim (fs : List Nat) (hfs : ∀ f ∈ fs, f < X.ncols) (b b' : Best α R) (h : BestSim m m' X b b') :
    ResSim (BestSim m m' X) (tryFeaturesBy m imp X y fs b) (tryFeaturesBy m' imp X y fs b') := by
  induction fs generalizing b b' with
  | nil => exact h
  | cons f fs ih =>
    have hf := hfs f (by simp)
    simp only [tryFeaturesBy]
    have hrest : ∀ b b', BestSim m m' X b b' → _ := ih fun g hg => hfs g (by simp [hg])
    rcases Nat.lt_or_ge (X.col f).length 3 with h3 | h3
    · rcases Nat.lt_or_ge (X.col f).length 1 with h1 | h1
      · have hnil : X.col f = [] := List.length_eq_zero_iff.mp (by omega)
        rw [hnil, thresholdsBy_nil m, thresholdsBy_nil m']
        cases hts : thresholdsBy (fun a _ => a) ([] : List α) with
        | ok ts =>
          have : ts = [] := by
            unfold thresholdsBy at hts
            simp only [Res.bind_eq_ok] at hts
            obtain ⟨r, -, s, hs, hts⟩ := hts
            cases r with
            | nil =>
              cases hs
              exact (Res.ok.inj hts).symm
            | cons i r => simp [mapRes, readAt] at hs
          subst this
          simp only [Res.bind_ok, tryThresholds]
          exact hrest b b' h
        | throw e => exact rfl
        | ub => trivial
        | diverge => trivial
      · rw [thresholds_smallBy m _ (by omega), thresholds_smallBy m' _ (by omega)]
        trivial
    · rw [thresholdsBy_pairs m (V f) (hm f) _ (hX f) h3, thresholdsBy_pairs m' (V f) (hm' f) _ (hX f) h3, Res.bind_ok, Res.bind_ok]
      refine ResSim.bind (tryThresholds_sim hm hm' imp X hx y hy hX f hf _ (fun q hq => List.mem_dedup.mp hq) b b' h) ?_
      intro c c' _ _ hc
      exact hrest c c' hc

include hx hy hX in
theorem bestSplit_sim (start : R) : ResSim (BestSim m m' X) (bestSplitBy m start imp X y) (bestSplitBy m' start imp X y) :=
  tryFeatures_sim hm hm' imp X hx y hy hX _ (fun _ h => List.mem_range.mp h) _ _ ⟨rfl, Or.inl ⟨rfl, rfl⟩⟩

end

/-- Trees with the same nodes whose splits come from the same pairs of neighbours among the values of the rows that reach them. -/
inductive Sim : List (List α) → Tree α ν → Tree α ν → Prop
  | null (rows : List (List α)) : Sim rows .null .null
  | leaf (rows : List (List α)) (v : ν) : Sim rows (.node v none .null .null) (.node v none .null .null)
  | split (rows lrows rrows : List (List α)) (v : ν) (f : Nat) (a c : α) (l l' r r' : Tree α ν) : V f a → V f c → a ≤ c →
      (∃ x ∈ rows, x[f]? = some a) → (∃ x ∈ rows, x[f]? = some c) → (∀ x ∈ rows, f < x.length) →
      (∀ x ∈ rows, ∀ w, x[f]? = some w → (w ≤ a ∨ c ≤ w) ∧ (w ≤ m a c ↔ w ≤ m' a c) ∧ (w ≤ m a c → x ∈ lrows) ∧ (m a c < w → x ∈ rrows)) →
      (∀ x ∈ lrows, x ∈ rows ∧ ∃ w, x[f]? = some w ∧ w ≤ m a c) → (∀ x ∈ rrows, x ∈ rows ∧ ∃ w, x[f]? = some w ∧ m a c < w) →
      Sim lrows l l' → Sim rrows r r' → Sim rows (.node v (some (f, m a c)) l r) (.node v (some (f, m' a c)) l' r')

variable {m m' V}

theorem build_sim (hm : ∀ f, Sep m (V f)) (hm' : ∀ f, Sep m' (V f)) (A : Algo α ν R) (P : Params R) (fuel : Nat) (X : DMat α)
    (hx : X.WF) (y : List α) (hy : y.length = X.nrows) (hX : ∀ f, ∀ a ∈ X.col f, V f a) (depth : Nat) :
    ResSim (Sim m m' V X.rows) (buildBy m A P fuel X y depth) (buildBy m' A P fuel X y depth) := by
  induction fuel generalizing X y depth with
  | zero => trivial
  | succ fuel ih =>
    simp only [buildBy]
    refine ResSim.bind (ResSim.refl (Q := Eq) _ fun _ _ => rfl) ?_
    rintro v _ - - rfl
    by_cases h1 : A.stop y = true
    · rw [if_pos h1, if_pos h1]; exact .leaf _ _
    rw [if_neg h1, if_neg h1]
    by_cases h2 : X.nrows < P.minSplit
    · rw [if_pos h2, if_pos h2]; exact .leaf _ _
    rw [if_neg h2, if_neg h2]
    by_cases h3 : P.maxDepth < depth
    · rw [if_pos h3, if_pos h3]; exact .leaf _ _
    rw [if_neg h3, if_neg h3]
    refine ResSim.bind (bestSplit_sim hm hm' A.impurity X hx y hy hX A.start) ?_
    rintro ⟨i, s⟩ ⟨i', s'⟩ - - ⟨hi, hs⟩
    simp only at hi hs
    subst hi
    rcases hs with ⟨rfl, rfl⟩ | ⟨f, a, c, hf, hac, rfl, rfl⟩
    · exact .leaf _ _
    by_cases h4 : i ≤ P.minDecrease
    · simp only [h4, if_true]; exact .leaf _ _
    simp only [h4, if_false]
    have hsame := part_same hm hm' X y hX hac
    simp only [gather_rows X hx y hy f hf, gather_targets X hx y hy f hf, Res.bind_ok, ← hsame.1, ← hsame.2]
    have hsub : ∀ (p : α → Bool) (g : Nat), ∀ v ∈ DMat.col ⟨X.ncols, (part X y f p).map Prod.fst⟩ g, V g v := by
      intro p g v hv
      obtain ⟨x, hxm, hxv⟩ := List.mem_filterMap.mp hv
      obtain ⟨e, he, rfl⟩ := List.mem_map.mp hxm
      exact hX g v (mem_col_of (List.of_mem_zip (List.mem_filter.mp he).1).1 hxv)
    have hrec : ∀ p : α → Bool, ResSim (Sim m m' V ((part X y f p).map Prod.fst))
        (buildBy m A P fuel ⟨X.ncols, (part X y f p).map Prod.fst⟩ ((part X y f p).map Prod.snd) (depth + 1))
        (buildBy m' A P fuel ⟨X.ncols, (part X y f p).map Prod.fst⟩ ((part X y f p).map Prod.snd) (depth + 1)) := fun p =>
      ih ⟨X.ncols, (part X y f p).map Prod.fst⟩ (part_wf X hx y f p) _ (part_len X y f p) (hsub p) _
    have hz : ∀ x ∈ X.rows, ∃ t, (x, t) ∈ X.rows.zip y := by
      intro x hxm
      obtain ⟨k, hk, rfl⟩ := List.mem_iff_getElem.mp hxm
      have hk' : k < y.length := by rw [hy]; exact hk
      exact ⟨y[k], List.mem_iff_getElem.mpr ⟨k, by simp [hk, hk'], by simp⟩⟩
    have hcol : ∀ w ∈ (X.col f).insertionSort (· ≤ ·), ∃ x ∈ X.rows, x[f]? = some w := by
      intro w hw
      obtain ⟨x, h1, h2⟩ := List.mem_filterMap.mp ((List.perm_insertionSort _ _).mem_iff.mp hw)
      exact ⟨x, h1, h2⟩
    have hp := pairs_le (List.pairwise_insertionSort (· ≤ ·) (X.col f)) hac
    have hmem := mem_pairs hac
    have hVs := sorted_V hm hm' X hX f
    have hback : ∀ (p : α → Bool), ∀ x ∈ (part X y f p).map Prod.fst, x ∈ X.rows ∧ ∃ w, x[f]? = some w ∧ p w = true := by
      intro p x hxm
      obtain ⟨e, he, rfl⟩ := List.mem_map.mp hxm
      obtain ⟨he1, he2⟩ := List.mem_filter.mp he
      refine ⟨(List.of_mem_zip he1).1, ?_⟩
      unfold side at he2
      cases hw : e.1[f]? with
      | none => rw [hw] at he2; cases he2
      | some w => rw [hw] at he2; exact ⟨w, rfl, he2⟩
    have hfwd : ∀ (p : α → Bool), ∀ x ∈ X.rows, ∀ w, x[f]? = some w → p w = true → x ∈ (part X y f p).map Prod.fst := by
      intro p x hxm w hw hpw
      obtain ⟨t, ht⟩ := hz x hxm
      refine List.mem_map.mpr ⟨(x, t), List.mem_filter.mpr ⟨ht, ?_⟩, rfl⟩
      simp only [side, hw, hpw]
    have fin : ∀ l l' r r' : Tree α ν, Sim m m' V ((part X y f fun v => decide (v ≤ m a c)).map Prod.fst) l l' →
        Sim m m' V ((part X y f fun v => decide (m a c < v)).map Prod.fst) r r' →
        Sim m m' V X.rows (.node v (some (f, m a c)) l r) (.node v (some (f, m' a c)) l' r') := by
      intro l l' r r' hl hr
      refine .split X.rows _ _ v f a c l l' r r' (hVs _ hmem.1) (hVs _ hmem.2) hp.1 (hcol _ hmem.1) (hcol _ hmem.2)
        (fun x hxm => by rw [hx x hxm]; exact hf) ?_ ?_ ?_ hl hr
      · intro x hxm w hw
        have hwc := mem_col_of hxm hw
        refine ⟨hp.2 w ((List.perm_insertionSort _ _).mem_iff.mpr hwc), same_col hm hm' X hX hac hwc, ?_, ?_⟩
        · intro h; exact hfwd _ x hxm w hw (decide_eq_true h)
        · intro h; exact hfwd _ x hxm w hw (decide_eq_true h)
      · intro x hxm
        obtain ⟨h1, w, h2, h3⟩ := hback _ x hxm
        exact ⟨h1, w, h2, of_decide_eq_true h3⟩
      · intro x hxm
        obtain ⟨h1, w, h2, h3⟩ := hback _ x hxm
        exact ⟨h1, w, h2, of_decide_eq_true h3⟩
    by_cases h5 : P.minLeaf ≤ ((part X y f fun v => decide (v ≤ m a c)).map Prod.fst).length
    · rw [if_pos h5, if_pos h5]
      refine ResSim.bind (hrec _) ?_
      intro l l' _ _ hl
      by_cases h6 : P.minLeaf ≤ ((part X y f fun v => decide (m a c < v)).map Prod.fst).length
      · rw [if_pos h6, if_pos h6]
        refine ResSim.bind (hrec _) ?_
        intro r r' _ _ hr
        exact fin l l' r r' hl hr
      · rw [if_neg h6, if_neg h6]
        exact fin l l' .null .null hl (.null _)
    · rw [if_neg h5, if_neg h5]
      by_cases h6 : P.minLeaf ≤ ((part X y f fun v => decide (m a c < v)).map Prod.fst).length
      · rw [if_pos h6, if_pos h6]
        refine ResSim.bind (hrec _) ?_
        intro r r' _ _ hr
        exact fin .null .null r r' (.null _) hr
      · rw [if_neg h6, if_neg h6]
        exact fin .null .null .null .null (.null _) (.null _)

theorem Sim.null_iff {rows : List (List α)} {T T' : Tree α ν} (h : Sim m m' V rows T T') : T = .null ↔ T' = .null := by
  cases h <;> simp

theorem Sim.value {rows : List (List α)} {T T' : Tree α ν} (h : Sim m m' V rows T T') (p : List Bool) : valueAt T p = valueAt T' p := by
  induction h generalizing p with
  | null => rfl
  | leaf => rfl
  | split _ _ _ _ _ _ _ _ _ _ _ _ _ _ _ _ _ _ _ _ _ _ ihl ihr =>
    match p with
    | [] => rfl
    | true :: p => exact ihl p
    | false :: p => exact ihr p

/-- Rows of the training data take the same way through both trees. -/
theorem Sim.follows {rows : List (List α)} {T T' : Tree α ν} (h : Sim m m' V rows T T') (x : List α) (hx : x ∈ rows) (p : List Bool) :
    Follows x T p ↔ Follows x T' p := by
  induction h generalizing p with
  | null => rfl
  | leaf => rfl
  | split rows lrows rrows v f a c l l' r r' _ _ _ _ _ _ h1 _ _ _ _ ihl ihr =>
    match p with
    | [] => exact Iff.rfl
    | true :: p =>
      simp only [Follows]
      constructor
      · rintro ⟨⟨w, hw, hle⟩, h⟩
        obtain ⟨-, e1, e2, -⟩ := h1 x hx w hw
        exact ⟨⟨w, hw, e1.mp hle⟩, (ihl (e2 hle) p).mp h⟩
      · rintro ⟨⟨w, hw, hle⟩, h⟩
        obtain ⟨-, e1, e2, -⟩ := h1 x hx w hw
        exact ⟨⟨w, hw, e1.mpr hle⟩, (ihl (e2 (e1.mpr hle)) p).mpr h⟩
    | false :: p =>
      simp only [Follows]
      constructor
      · rintro ⟨⟨w, hw, hlt⟩, h⟩
        obtain ⟨-, e1, -, e3⟩ := h1 x hx w hw
        exact ⟨⟨w, hw, not_le.mp fun h0 => absurd (e1.mpr h0) (not_le.mpr hlt)⟩, (ihr (e3 hlt) p).mp h⟩
      · rintro ⟨⟨w, hw, hlt⟩, h⟩
        obtain ⟨-, e1, -, e3⟩ := h1 x hx w hw
        have hlt' : m a c < w := not_le.mp fun h0 => absurd (e1.mp h0) (not_le.mpr hlt)
        exact ⟨⟨w, hw, hlt'⟩, (ihr (e3 hlt') p).mpr h⟩

/-- Both trees are split at the same nodes, by neighbouring values of the rows that reach the node. -/
theorem Sim.splits {rows : List (List α)} {T T' : Tree α ν} (h : Sim m m' V rows T T') (p : List Bool) :
    splitAt T p = splitAt T' p ∧ (∀ f t, splitAt T p ≠ some (some (f, t))) ∨
    ∃ f a c, splitAt T p = some (some (f, m a c)) ∧ splitAt T' p = some (some (f, m' a c)) ∧ V f a ∧ V f c ∧ a ≤ c ∧
      (∃ x ∈ rows, Follows x T p ∧ x[f]? = some a) ∧ (∃ x ∈ rows, Follows x T p ∧ x[f]? = some c) ∧
      ∀ x ∈ rows, Follows x T p → ∃ w, x[f]? = some w ∧ (w ≤ a ∨ c ≤ w) := by
  induction h generalizing p with
  | null => exact Or.inl ⟨rfl, fun f t h => by simp [splitAt] at h⟩
  | leaf rows v =>
    left
    refine ⟨rfl, fun f t h => ?_⟩
    match p, h with
    | [], h => simp [splitAt] at h
    | true :: p, h => simp [splitAt] at h
    | false :: p, h => simp [splitAt] at h
  | split rows lrows rrows v f a c l l' r r' ha hc hac hxa hxc hlen h1 h2 h3 _ _ ihl ihr =>
    match p with
    | [] =>
      refine Or.inr ⟨f, a, c, rfl, rfl, ha, hc, hac, ?_, ?_, ?_⟩
      · obtain ⟨x, e1, e2⟩ := hxa; exact ⟨x, e1, trivial, e2⟩
      · obtain ⟨x, e1, e2⟩ := hxc; exact ⟨x, e1, trivial, e2⟩
      · intro x hx _
        have e := List.getElem?_eq_getElem (hlen x hx)
        exact ⟨_, e, (h1 x hx _ e).1⟩
    | true :: p =>
      rcases ihl p with h | ⟨g, a', c', e1, e2, e3, e4, e5, ⟨x, hx, hxf, hxg⟩, ⟨z, hz, hzf, hzg⟩, e8⟩
      · exact Or.inl h
      · refine Or.inr ⟨g, a', c', e1, e2, e3, e4, e5, ?_, ?_, ?_⟩
        · exact ⟨x, (h2 x hx).1, ⟨(h2 x hx).2, hxf⟩, hxg⟩
        · exact ⟨z, (h2 z hz).1, ⟨(h2 z hz).2, hzf⟩, hzg⟩
        · rintro x hx ⟨⟨w, hw, hle⟩, hf⟩
          exact e8 x ((h1 x hx w hw).2.2.1 hle) hf
    | false :: p =>
      rcases ihr p with h | ⟨g, a', c', e1, e2, e3, e4, e5, ⟨x, hx, hxf, hxg⟩, ⟨z, hz, hzf, hzg⟩, e8⟩
      · exact Or.inl h
      · refine Or.inr ⟨g, a', c', e1, e2, e3, e4, e5, ?_, ?_, ?_⟩
        · exact ⟨x, (h3 x hx).1, ⟨(h3 x hx).2, hxf⟩, hxg⟩
        · exact ⟨z, (h3 z hz).1, ⟨(h3 z hz).2, hzf⟩, hzg⟩
        · rintro x hx ⟨⟨w, hw, hlt⟩, hf⟩
          exact e8 x ((h1 x hx w hw).2.2.2 hlt) hf

/-- A query on the same side of all pairs of thresholds gets the same value. -/
theorem Sim.route {rows : List (List α)} {T T' : Tree α ν} (h : Sim m m' V rows T T') (x : List α)
    (hx : ∀ p f t t', splitAt T p = some (some (f, t)) → splitAt T' p = some (some (f, t')) → ∀ w, x[f]? = some w → (w ≤ t ↔ w ≤ t')) :
    route x T = route x T' := by
  induction h with
  | null => rfl
  | leaf => rfl
  | split rows lrows rrows v f a c l l' r r' ha hc hac hxa hxc hlen h1 h2 h3 hl hr ihl ihr =>
    have il := ihl fun p f t t' e1 e2 => hx (true :: p) f t t' e1 e2
    have ir := ihr fun p f t t' e1 e2 => hx (false :: p) f t t' e1 e2
    have h0 := hx [] f _ _ rfl rfl
    cases l with
    | null =>
      rw [hl.null_iff.mp rfl]
      rfl
    | node v1 s1 l1 r1 =>
      cases l' with
      | null => exact absurd (hl.null_iff.mpr rfl) (by simp)
      | node v2 s2 l2 r2 =>
        simp only [DTree.route]
        cases hw : x[f]? with
        | none => simp [readAt, hw]
        | some w =>
          simp only [readAt, hw, Res.bind_ok]
          by_cases hle : w ≤ m a c
          · rw [if_pos hle, if_pos ((h0 w hw).mp hle)]; exact il
          · rw [if_neg hle, if_neg fun h => hle ((h0 w hw).mpr h)]; exact ir

theorem sep_exact (V : α → Prop) : Sep (fun a b : α => (a + b) / 2) V :=
  ⟨fun a _ => by rw [← two_mul, mul_div_cancel_left₀ _ two_ne_zero], fun a b _ _ h => by linarith, fun a b _ _ h => by linarith⟩

theorem build_exact (A : Algo α ν R) (P : Params R) : build A P = buildBy (fun a b => (a + b) / 2) A P := by
  have h1 : ∀ l : List α, midpoints l = midpointsBy (fun a b => (a + b) / 2) l := by
    intro l
    induction l with
    | nil => rfl
    | cons a l ih =>
      cases l with
      | nil => rfl
      | cons b l => rw [midpoints, midpointsBy, ih]
  have h2 : ∀ x : List α, thresholds x = thresholdsBy (fun a b => (a + b) / 2) x := fun x => by
    simp only [thresholds, thresholdsBy, h1]
  have h3 : ∀ (X : DMat α) (y : List α) (fs : List Nat) (b : Best α R),
      tryFeatures A.impurity X y fs b = tryFeaturesBy (fun a b => (a + b) / 2) A.impurity X y fs b := by
    intro X y fs
    induction fs with
    | nil => intro b; rfl
    | cons f fs ih => intro b; simp only [tryFeatures, tryFeaturesBy, h2, ih]
  funext fuel
  induction fuel with
  | zero => rfl
  | succ fuel ih =>
    funext X y depth
    simp only [build, buildBy, bestSplit, bestSplitBy, h3, ih]
    congr 1

end OpenML.DTree
