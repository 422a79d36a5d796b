import Verif.Lemmas.KDQuery
import Verif.Model.Norm

set_option linter.unusedSectionVars false

namespace OpenML.KDTree
open Spec

variable {α : Type} [CommRing α] [LinearOrder α]

theorem exists_max_key {E κ : Type} [LinearOrder κ] (key : E → κ) (l : List E) (h : l ≠ []) :
    ∃ m ∈ l, ∀ x ∈ l, key x ≤ key m := by
  obtain ⟨m, r, -, h2, h3⟩ := extractMax_spec key l h
  exact ⟨m, h3.mem_iff.mp (by simp), h2⟩

/-- Rows with their numbers as heap entries. -/
def allEntries (nrm : List α → α) (rows : List (List α)) (x : List α) : List (WithTop α × Nat) :=
  (rows.zip (List.range rows.length)).map (entryKey nrm x)

theorem getElem?_allEntries (nrm : List α → α) (rows : List (List α)) (x : List α) (i : Nat) :
    (allEntries nrm rows x)[i]? = rows[i]?.map fun p => (((distance nrm p x : α) : WithTop α), i) := by
  unfold allEntries
  rw [List.getElem?_map]
  rcases Nat.lt_or_ge i rows.length with h | h
  · rw [List.getElem?_eq_getElem (by simpa using h), List.getElem?_eq_getElem h]
    simp [entryKey]
  · rw [List.getElem?_eq_none (by simpa using h), List.getElem?_eq_none h]
    rfl

theorem allEntries_snd (nrm : List α → α) (rows : List (List α)) (x : List α) :
    (allEntries nrm rows x).map Prod.snd = List.range rows.length := by
  unfold allEntries
  rw [List.map_map]
  have : (Prod.snd ∘ entryKey nrm x : List α × Nat → Nat) = Prod.snd := rfl
  rw [this, List.map_snd_zip (by simp)]

theorem allEntries_finite (nrm : List α → α) (rows : List (List α)) (x : List α) :
    ∀ e ∈ allEntries nrm rows x, e.1 ≠ ⊤ := by
  intro e he
  obtain ⟨p, -, rfl⟩ := List.mem_map.mp he
  exact WithTop.coe_ne_top

theorem mem_allEntries (nrm : List α → α) (rows : List (List α)) (x : List α) (e : WithTop α × Nat)
    (h : e ∈ allEntries nrm rows x) : ∃ p, rows[e.2]? = some p ∧ e.1 = (distance nrm p x : α) := by
  obtain ⟨i, hi⟩ := List.getElem?_of_mem h
  rw [getElem?_allEntries] at hi
  cases hr : rows[i]? with
  | none => rw [hr] at hi; simp at hi
  | some p =>
    rw [hr] at hi
    simp only [Option.map_some, Option.some.injEq] at hi
    subst hi
    exact ⟨p, hr, rfl⟩

/-- Filtering the finite entries of padding plus rows. -/
theorem filter_finite {res D K : List (WithTop α × Nat)} {k : Nat} (hK : ∀ e ∈ K, e.1 ≠ ⊤)
    (h : (res ++ D).Perm (List.replicate k (⊤, 0) ++ K)) :
    (res.filter (fun e => decide (e.1 ≠ ⊤)) ++ D.filter fun e => decide (e.1 ≠ ⊤)).Perm K := by
  have := h.filter fun e => decide (e.1 ≠ ⊤)
  rw [List.filter_append, List.filter_append] at this
  have e1 : (List.replicate k ((⊤ : WithTop α), 0)).filter (fun e => decide (e.1 ≠ ⊤)) = [] := by
    rw [List.filter_eq_nil_iff]
    intro e he
    rw [List.eq_of_mem_replicate he]
    simp
  have e2 : K.filter (fun e => decide (e.1 ≠ ⊤)) = K := List.filter_eq_self.mpr (by simpa using hK)
  rw [e1, e2] at this
  exact this

theorem _root_.OpenML.IsKSmallest.no_padding {res K : List (WithTop α × Nat)} {k : Nat} (hK : ∀ e ∈ K, e.1 ≠ ⊤) (hk : k ≤ K.length)
    (h : IsKSmallest Prod.fst k res (List.replicate k (⊤, 0) ++ K)) : ∀ e ∈ res, e.1 ≠ ⊤ := by
  by_cases hK0 : K = []
  · subst hK0
    have : k = 0 := by simpa using hk
    have := h.1
    intro e he
    have : res = [] := List.length_eq_zero_iff.mp (by omega)
    subst this
    simp at he
  · obtain ⟨m, hm, hmax⟩ := exists_max_key Prod.fst K hK0
    intro e he
    exact ne_top_of_le_ne_top (hK m hm) (h.le_of_many (B := K) (C := List.replicate k (⊤, 0)) List.perm_append_comm hk m.1
      hmax e he)

/-- The answer drawn from some of the rows: everything but completeness. -/
theorem sound_of_smallest (nrm : List α → α) (rows : List (List α)) (x : List α) (k : Nat) (res : List (WithTop α × Nat))
    (K : List (WithTop α × Nat)) (hK : K.Subperm (allEntries nrm rows x)) (hfin : ∀ e ∈ res, e.1 ≠ ⊤)
    (h : IsKSmallest Prod.fst k res (List.replicate k (⊤, 0) ++ K)) :
    (∃ D, (res ++ D).Perm K ∧ ∀ a ∈ res, ∀ d ∈ D, a.1 ≤ d.1) ∧ res.length = k ∧ (res.map Prod.snd).Nodup ∧
      ∀ e ∈ res, ∃ p, rows[e.2]? = some p ∧ e.1 = (distance nrm p x : α) := by
  obtain ⟨h1, D, h2, h3⟩ := h
  have hKf : ∀ e ∈ K, e.1 ≠ ⊤ := fun e he => allEntries_finite nrm rows x e (hK.subset he)
  have hp := filter_finite hKf h2
  have e1 : res.filter (fun e => decide (e.1 ≠ ⊤)) = res := List.filter_eq_self.mpr (by simpa using hfin)
  rw [e1] at hp
  have hsub : res.Subperm (allEntries nrm rows x) :=
    ((List.sublist_append_left res _).subperm.trans hp.subperm).trans hK
  refine ⟨⟨_, hp, fun a ha d hd => h3 a ha d (List.mem_of_mem_filter hd)⟩, h1, ?_, ?_⟩
  · have hn : ((allEntries nrm rows x).map Prod.snd).Nodup := by rw [allEntries_snd]; exact List.nodup_range
    obtain ⟨l, hl1, hl2⟩ := hsub
    have hl3 := hl2.map Prod.snd
    exact (hl1.map Prod.snd).nodup_iff.mp (hl3.nodup hn)
  · intro e he
    exact mem_allEntries nrm rows x e (hsub.subset he)

theorem isKNearest_of_smallest (nrm : List α → α) (rows : List (List α)) (x : List α) (k : Nat) (hk : k ≤ rows.length)
    (res : List (WithTop α × Nat)) (hs : res.Pairwise fun a b => a.1 ≤ b.1)
    (h : IsKSmallest Prod.fst k res (List.replicate k (⊤, 0) ++ allEntries nrm rows x)) :
    IsKNearest nrm rows x k res := by
  have hl : (allEntries nrm rows x).length = rows.length := by simp [allEntries]
  have hfin := h.no_padding (allEntries_finite nrm rows x) (by omega)
  obtain ⟨⟨D, hD, hle⟩, h1, h2, h3⟩ := sound_of_smallest nrm rows x k res _ (List.Subperm.refl _) hfin h
  refine ⟨h1, hs, h2, h3, ?_⟩
  intro i p hp hni e he
  have hmem : (((distance nrm p x : α) : WithTop α), i) ∈ allEntries nrm rows x := by
    apply List.mem_of_getElem? (i := i)
    rw [getElem?_allEntries, hp]
    rfl
  rcases List.mem_append.mp (hD.mem_iff.mpr hmem) with hm | hm
  · exact absurd (List.mem_map.mpr ⟨_, hm, rfl⟩) hni
  · exact hle e he _ hm

/-- More neighbours requested than rows: all rows, then padding. -/
theorem padded_of_smallest (nrm : List α → α) (rows : List (List α)) (x : List α) (k : Nat) (hk : rows.length < k)
    (res : List (WithTop α × Nat)) (hs : res.Pairwise fun a b => a.1 ≤ b.1)
    (h : IsKSmallest Prod.fst k res (List.replicate k (⊤, 0) ++ allEntries nrm rows x)) :
    ∃ found, res = found ++ List.replicate (k - rows.length) (⊤, 0) ∧ IsKNearest nrm rows x rows.length found := by
  obtain ⟨h1, D, h2, h3⟩ := h
  have hl : (allEntries nrm rows x).length = rows.length := by simp [allEntries]
  have hp := filter_finite (allEntries_finite nrm rows x) h2
  have hD : D.filter (fun e => decide (e.1 ≠ ⊤)) = [] := by
    by_contra hne
    obtain ⟨d, hd⟩ := List.exists_mem_of_ne_nil _ hne
    have hd' := List.mem_filter.mp hd
    have hres : res.filter (fun e => decide (e.1 ≠ ⊤)) = res := by
      rw [List.filter_eq_self]
      intro e he
      have := ne_top_of_le_ne_top (by simpa using hd'.2) (h3 e he d hd'.1)
      simpa using this
    rw [hres] at hp
    have := hp.length_eq
    rw [List.length_append] at this
    omega
  rw [hD, List.append_nil] at hp
  have hsplit : ∀ l : List (WithTop α × Nat), l.Pairwise (fun a b => a.1 ≤ b.1) →
      l = l.filter (fun e => decide (e.1 ≠ ⊤)) ++ l.filter (fun e => !decide (e.1 ≠ ⊤)) := by
    intro l hl
    induction l with
    | nil => rfl
    | cons e l ih =>
      rw [List.pairwise_cons] at hl
      by_cases he : e.1 = ⊤
      · have hall : ∀ a ∈ l, a.1 = ⊤ := fun a ha => top_le_iff.mp (he ▸ hl.1 a ha)
        have e1 : l.filter (fun e => decide (e.1 ≠ ⊤)) = [] := by
          rw [List.filter_eq_nil_iff]; intro a ha; simp [hall a ha]
        have e2 : l.filter (fun e => !decide (e.1 ≠ ⊤)) = l := by
          rw [List.filter_eq_self]; intro a ha; simp [hall a ha]
        simp only [List.filter_cons, he, ne_eq, not_true_eq_false, decide_false, Bool.false_eq_true, if_false,
          Bool.not_false, if_true]
        simp only [ne_eq] at e1 e2
        rw [e1, e2]
        rfl
      · simp only [List.filter_cons, he, ne_eq, not_false_eq_true, decide_true, if_true, Bool.not_true,
          Bool.false_eq_true, if_false, List.cons_append]
        have := ih hl.2
        simp only [ne_eq] at this
        rw [← this]
  have hlen : (res.filter fun e => decide (e.1 ≠ ⊤)).length = rows.length := by rw [hp.length_eq, hl]
  have hpad : res.filter (fun e => !decide (e.1 ≠ ⊤)) = List.replicate (k - rows.length) (⊤, 0) := by
    rw [List.eq_replicate_iff]
    constructor
    · have := congrArg List.length (hsplit res hs)
      rw [List.length_append] at this
      omega
    · intro e he
      have he' := List.mem_filter.mp he
      have hmem := h2.mem_iff.mp (List.mem_append.mpr (Or.inl he'.1))
      rcases List.mem_append.mp hmem with hm | hm
      · exact List.eq_of_mem_replicate hm
      · exact absurd (by simpa using he'.2) (allEntries_finite nrm rows x e hm)
  refine ⟨res.filter fun e => decide (e.1 ≠ ⊤), by rw [← hpad]; exact hsplit res hs, hlen, ?_, ?_, ?_, ?_⟩
  · exact hs.sublist List.filter_sublist
  · have := hp.map Prod.snd
    rw [allEntries_snd] at this
    exact this.nodup_iff.mpr List.nodup_range
  · intro e he
    exact mem_allEntries nrm rows x e (hp.mem_iff.mp he)
  · intro i p hpi hni
    exfalso
    have hmem : (((distance nrm p x : α) : WithTop α), i) ∈ allEntries nrm rows x := by
      apply List.mem_of_getElem? (i := i)
      rw [getElem?_allEntries, hpi]
      rfl
    exact hni (List.mem_map.mpr ⟨_, hp.mem_iff.mpr hmem, rfl⟩)

section Widest
variable [IsStrictOrderedRing α]

theorem foldl_max_mem (l : List α) (a : α) : l.foldl max a ∈ a :: l := by
  induction l generalizing a with
  | nil => simp
  | cons b l ih =>
    rcases List.mem_cons.mp (ih (max a b)) with h | h
    · rw [List.foldl_cons, h]
      rcases max_choice a b with h | h <;> simp [h]
    · simp [List.foldl_cons, h]

theorem foldl_min_mem (l : List α) (a : α) : l.foldl min a ∈ a :: l := by
  induction l generalizing a with
  | nil => simp
  | cons b l ih =>
    rcases List.mem_cons.mp (ih (min a b)) with h | h
    · rw [List.foldl_cons, h]
      rcases min_choice a b with h | h <;> simp [h]
    · simp [List.foldl_cons, h]

theorem spread_mem (l : List α) (h : l ≠ []) : ∃ a ∈ l, ∃ b ∈ l, spread l = |a - b| := by
  cases l with
  | nil => exact absurd rfl h
  | cons c l => exact ⟨_, foldl_max_mem l c, _, foldl_min_mem l c, rfl⟩

theorem le_spread (l : List α) {a b : α} (ha : a ∈ l) (hb : b ∈ l) : |a - b| ≤ spread l := by
  cases l with
  | nil => simp at ha
  | cons c l =>
    have h1 : ∀ x ∈ c :: l, x ≤ l.foldl max c := by
      intro x hx
      rcases List.mem_cons.mp hx with rfl | hx
      · exact (le_foldl_max l x).1
      · exact (le_foldl_max l c).2 x hx
    have h2 : ∀ x ∈ c :: l, l.foldl min c ≤ x := by
      intro x hx
      rcases List.mem_cons.mp hx with rfl | hx
      · exact (foldl_min_le l x).1
      · exact (foldl_min_le l c).2 x hx
    have := h1 a ha
    have := h1 b hb
    have := h2 a ha
    have := h2 b hb
    rw [spread, abs_of_nonneg (a := l.foldl max c - l.foldl min c) (by linarith), abs_le]
    constructor <;> linarith

theorem axis_zero (x : DMat α) (hx : x.WF) (hc : 0 < x.ncols) (hr : 0 < x.nrows)
    (hw : FirstFeatureWidest x.ncols x.rows) : findPartitionAxis x = 0 := by
  obtain ⟨hlt, v, hv, hmax⟩ := findPartitionAxis_lt x hc
  rw [List.getElem?_map, DMat.getElem?_cols x hlt] at hv
  simp only [Option.map_some, Option.some.injEq] at hv
  have h0 : (x.cols.map spread)[0]? = some (spread (x.col 0)) := by
    rw [List.getElem?_map, DMat.getElem?_cols x hc]; rfl
  have hne : x.col (findPartitionAxis x) ≠ [] := by
    intro h
    have := DMat.length_col hx hlt
    rw [h] at this
    simp at this
    omega
  obtain ⟨a, ha, b, hb, hab⟩ := spread_mem _ hne
  obtain ⟨p, hp, hpa⟩ := List.mem_filterMap.mp ha
  obtain ⟨q, hq, hqb⟩ := List.mem_filterMap.mp hb
  obtain ⟨p', hp', q', hq', a', b', e1, e2, hle⟩ := hw _ hlt p hp q hq a b hpa hqb
  have : |a' - b'| ≤ spread (x.col 0) :=
    le_spread _ (List.mem_filterMap.mpr ⟨p', hp', e1⟩) (List.mem_filterMap.mpr ⟨q', hq', e2⟩)
  obtain ⟨h1, h2⟩ := hmax 0 _ h0
  have : spread (x.col 0) = v := le_antisymm h1 (by rw [← hv, hab]; exact hle.trans this)
  have := h2 this
  omega

end Widest

/-! ## the norms -/

theorem norm1_monotone [IsStrictOrderedRing α] : MonotoneNorm (norm1 : List α → α) := by
  intro u v h
  unfold norm1
  induction h with
  | nil => exact le_refl _
  | cons h _ ih => simpa using add_le_add h ih

theorem foldl_max_mono {u v : List α} (h : List.Forall₂ (· ≤ ·) u v) {a b : α} (hab : a ≤ b) :
    u.foldl max a ≤ v.foldl max b := by
  induction h generalizing a b with
  | nil => exact hab
  | cons h _ ih => exact ih (max_le_max hab h)

theorem normInf_monotone [IsStrictOrderedRing α] : MonotoneNorm (normInf : List α → α) := by
  intro u v h
  unfold normInf
  apply foldl_max_mono _ (le_refl _)
  rw [List.forall₂_map_left_iff, List.forall₂_map_right_iff]
  exact h

theorem norm2_monotone : MonotoneNorm norm2 := by
  intro u v h
  unfold norm2
  apply Real.sqrt_le_sqrt
  induction h with
  | nil => exact le_refl _
  | cons h _ ih =>
    simp only [List.map_cons, List.sum_cons]
    exact add_le_add (mul_self_le_mul_self_iff_abs h) ih
where
  mul_self_le_mul_self_iff_abs {a b : ℝ} (h : |a| ≤ |b|) : a * a ≤ b * b := by
    rw [← abs_mul_abs_self a, ← abs_mul_abs_self b]
    exact mul_le_mul h h (abs_nonneg _) (abs_nonneg _)

end OpenML.KDTree
