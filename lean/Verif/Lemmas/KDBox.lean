import Verif.Lemmas.KDBuild

set_option linter.unusedSectionVars false

namespace OpenML.KDTree

variable {α : Type} [CommRing α] [LinearOrder α]

/-- A row lies inside a rectangle. -/
def InRect (rect : Rect α) (row : List α) : Prop :=
  ∀ (j : Nat) (v : α), row[j]? = some v → (∀ l, rect.lo[j]? = some l → l ≤ v) ∧ ∀ h, rect.hi[j]? = some h → v ≤ h

/-- All rectangles have the width of the data. -/
def Wide (ncols : Nat) : T α → Prop
  | .leaf _ _ => True
  | .branch lr rr l r => (lr.lo.length = ncols ∧ lr.hi.length = ncols ∧ rr.lo.length = ncols ∧ rr.hi.length = ncols) ∧
      Wide ncols l ∧ Wide ncols r

/-- Every subtree lies inside the rectangle its parent keeps for it. -/
def Boxed : T α → Prop
  | .leaf _ _ => True
  | .branch lr rr l r => ((∀ e ∈ l.entries, InRect lr e.1) ∧ ∀ e ∈ r.entries, InRect rr e.1) ∧ Boxed l ∧ Boxed r

theorem InRect.cut_hi {rect : Rect α} {row : List α} (h : InRect rect row) (axis : Nat) (v : α)
    (hv : ∀ w, row[axis]? = some w → w ≤ v) : InRect ⟨rect.lo, rect.hi.set axis v⟩ row := by
  intro j w hw
  refine ⟨(h j w hw).1, ?_⟩
  intro u hu
  simp only [List.getElem?_set] at hu
  split at hu
  · subst_vars
    split at hu
    · cases hu; exact hv w hw
    · cases hu
  · exact (h j w hw).2 u hu

theorem InRect.cut_lo {rect : Rect α} {row : List α} (h : InRect rect row) (axis : Nat) (v : α)
    (hv : ∀ w, row[axis]? = some w → v ≤ w) : InRect ⟨rect.lo.set axis v, rect.hi⟩ row := by
  intro j w hw
  refine ⟨?_, (h j w hw).2⟩
  intro u hu
  simp only [List.getElem?_set] at hu
  split at hu
  · subst_vars
    split at hu
    · cases hu; exact hv w hw
    · cases hu
  · exact (h j w hw).1 u hu

theorem mem_of_zip_perm {β γ : Type} {a a' : List β} {b b' : List γ} (hp : (a'.zip b').Perm (a.zip b))
    (hl : b'.length = a'.length) {q : β} (hq : q ∈ a') : q ∈ a := by
  obtain ⟨i, hi, rfl⟩ := List.getElem_of_mem hq
  have : (a'[i], b'[i]) ∈ a'.zip b' := by
    have h : (a'.zip b')[i]'(by simp; omega) = (a'[i], b'[i]) := by simp
    rw [← h]
    exact List.getElem_mem _
  exact (List.of_mem_zip (hp.mem_iff.mp this)).1

theorem Built.wide {ncols leafSize : Nat} {rect : Rect α} {rows : List (List α)} {idx : List Nat} {t : T α}
    (h : Built ncols leafSize rect rows idx t) (hlo : rect.lo.length = ncols) (hhi : rect.hi.length = ncols) :
    Wide ncols t := by
  induction h with
  | leaf => trivial
  | branch rect rows rows' idx idx' axis v l r hsize h3 hperm hrl hil hax hleft hright hl hr ihl ihr =>
    exact ⟨⟨hlo, by simpa using hhi, by simpa using hlo, hhi⟩, ihl hlo (by simpa using hhi), ihr (by simpa using hlo) hhi⟩

theorem mem_entries_row {ncols leafSize : Nat} {rect : Rect α} {rows : List (List α)} {idx : List Nat} {t : T α}
    (h : Built ncols leafSize rect rows idx t) {e : List α × Nat} (he : e ∈ t.entries) : e.1 ∈ rows :=
  (List.of_mem_zip (h.entries_perm.mem_iff.mp he)).1

theorem Built.boxed {ncols leafSize : Nat} {rect : Rect α} {rows : List (List α)} {idx : List Nat} {t : T α}
    (h : Built ncols leafSize rect rows idx t) (hin : ∀ q ∈ rows, InRect rect q) : Boxed t := by
  induction h with
  | leaf => trivial
  | branch rect rows rows' idx idx' axis v l r hsize h3 hperm hrl hil hax hleft hright hl hr ihl ihr =>
    have hin' : ∀ q ∈ rows', InRect rect q := fun q hq => hin q (mem_of_zip_perm hperm (by omega) hq)
    have h1 : ∀ q ∈ rows'.take (rows.length / 2), InRect ⟨rect.lo, rect.hi.set axis v⟩ q := fun q hq =>
      (hin' q (List.mem_of_mem_take hq)).cut_hi axis v (hleft q hq)
    have h2 : ∀ q ∈ rows'.drop (rows.length / 2), InRect ⟨rect.lo.set axis v, rect.hi⟩ q := fun q hq =>
      (hin' q (List.mem_of_mem_drop hq)).cut_lo axis v (hright q hq)
    exact ⟨⟨fun e he => h1 _ (mem_entries_row hl he), fun e he => h2 _ (mem_entries_row hr he)⟩, ihl h1, ihr h2⟩

theorem foldl_min_le (l : List α) (a : α) : l.foldl min a ≤ a ∧ ∀ x ∈ l, l.foldl min a ≤ x := by
  induction l generalizing a with
  | nil => simp
  | cons b l ih =>
    obtain ⟨h1, h2⟩ := ih (min a b)
    refine ⟨h1.trans (min_le_left _ _), ?_⟩
    intro x hx
    rcases List.mem_cons.mp hx with rfl | hx
    · exact h1.trans (min_le_right _ _)
    · exact h2 x hx

theorem le_foldl_max (l : List α) (a : α) : a ≤ l.foldl max a ∧ ∀ x ∈ l, x ≤ l.foldl max a := by
  induction l generalizing a with
  | nil => simp
  | cons b l ih =>
    obtain ⟨h1, h2⟩ := ih (max a b)
    refine ⟨(le_max_left _ _).trans h1, ?_⟩
    intro x hx
    rcases List.mem_cons.mp hx with rfl | hx
    · exact (le_max_right _ _).trans h1
    · exact h2 x hx

theorem minCoeff_spec (l : List α) (h : l ≠ []) : ∃ m, minCoeff l = .ok m ∧ ∀ x ∈ l, m ≤ x := by
  cases l with
  | nil => exact absurd rfl h
  | cons a l =>
    refine ⟨_, rfl, ?_⟩
    intro x hx
    rcases List.mem_cons.mp hx with rfl | hx
    · exact (foldl_min_le l x).1
    · exact (foldl_min_le l a).2 x hx

theorem maxCoeff_spec (l : List α) (h : l ≠ []) : ∃ m, maxCoeff l = .ok m ∧ ∀ x ∈ l, x ≤ m := by
  cases l with
  | nil => exact absurd rfl h
  | cons a l =>
    refine ⟨_, rfl, ?_⟩
    intro x hx
    rcases List.mem_cons.mp hx with rfl | hx
    · exact (le_foldl_max l x).1
    · exact (le_foldl_max l a).2 x hx

theorem mapRes_total {β γ : Type} {f : β → Res γ} (l : List β) (h : ∀ a ∈ l, ∃ b, f a = .ok b) :
    ∃ bs, mapRes f l = .ok bs := by
  induction l with
  | nil => exact ⟨[], rfl⟩
  | cons a l ih =>
    obtain ⟨b, hb⟩ := h a (by simp)
    obtain ⟨bs, hbs⟩ := ih fun c hc => h c (by simp [hc])
    exact ⟨b :: bs, by simp [mapRes, hb, hbs]⟩

/-- The bounding rectangle of the data. -/
theorem bounding (x : DMat α) (hx : x.WF) (hne : 0 < x.nrows) :
    ∃ lo hi, mapRes minCoeff x.cols = .ok lo ∧ mapRes maxCoeff x.cols = .ok hi ∧ lo.length = x.ncols ∧
      hi.length = x.ncols ∧ ∀ q ∈ x.rows, InRect ⟨lo, hi⟩ q := by
  have hcne : ∀ c ∈ x.cols, c ≠ [] := by
    intro c hc h0
    have := DMat.length_of_mem_cols hx hc
    rw [h0] at this
    simp at this
    omega
  obtain ⟨lo, hlo⟩ := mapRes_total (f := minCoeff) x.cols fun c hc => (minCoeff_spec c (hcne c hc)).imp fun _ h => h.1
  obtain ⟨hi, hhi⟩ := mapRes_total (f := maxCoeff) x.cols fun c hc => (maxCoeff_spec c (hcne c hc)).imp fun _ h => h.1
  obtain ⟨l1, l2⟩ := mapRes_eq_ok hlo
  obtain ⟨h1, h2⟩ := mapRes_eq_ok hhi
  rw [DMat.length_cols] at l1 h1
  refine ⟨lo, hi, hlo, hhi, l1, h1, ?_⟩
  intro q hq j v hv
  have hj : j < x.ncols := by rw [← hx q hq]; exact (List.getElem?_eq_some_iff.mp hv).1
  have hvc : v ∈ x.col j := List.mem_filterMap.mpr ⟨q, hq, hv⟩
  have hc := DMat.getElem?_cols x hj
  have hmem : x.col j ∈ x.cols := List.mem_of_getElem? hc
  constructor
  · intro l hl
    obtain ⟨m, hm, hmin⟩ := l2 j _ hc
    rw [hl] at hm
    cases hm
    obtain ⟨m', e, h⟩ := minCoeff_spec _ (hcne _ hmem)
    rw [hmin] at e
    cases e
    exact h v hvc
  · intro l hl
    obtain ⟨m, hm, hmin⟩ := h2 j _ hc
    rw [hl] at hm
    cases hm
    obtain ⟨m', e, h⟩ := maxCoeff_spec _ (hcne _ hmem)
    rw [hmin] at e
    cases e
    exact h v hvc

/-- The tree produced by the constructor. -/
structure BuiltTree (x : DMat α) (leafSize : Nat) (nodes : List (Node α)) (t : T α) : Prop where
  flat : nodes = t.flat 0
  entries : t.entries.Perm (x.rows.zip (List.range x.nrows))
  sizes : ∀ p ∈ t.leaves, p.1.length ≤ leafSize ∧ 1 ≤ p.1.length ∧ p.2.length = p.1.length
  three : 5 ≤ leafSize → 6 ≤ x.nrows → ∀ p ∈ t.leaves, 3 ≤ p.1.length
  wide : Wide x.ncols t
  boxed : findPartitionAxis x = 0 → Boxed t
  branch : ∃ lr rr l r, t = .branch lr rr l r
  halves : ∀ lr rr l r, t = .branch lr rr l r → l.Halved leafSize (x.nrows / 2) ∧ r.Halved leafSize (x.nrows - x.nrows / 2)

theorem build_ok (x : DMat α) (hx : x.WF) (hc : 0 < x.ncols) (h3 : 3 ≤ x.nrows) (leafSize : Nat) (hL : 2 ≤ leafSize) :
    ∃ nodes t, build x leafSize = .ok nodes ∧ BuiltTree x leafSize nodes t := by
  obtain ⟨lo, hi, hlo, hhi, hll, hhl, hin⟩ := bounding x hx (by omega)
  obtain ⟨s, hs, haxis, hax, hord, hsrows, hle, hge⟩ := sortRows_ok x hx hc h3
  have hlt : ∀ i ∈ s.order, i < x.rows.length := fun i hi => List.mem_range.mp (hord.mem_iff.mp hi)
  have hol : s.order.length = x.nrows := by simpa using hord.length_eq
  have hrl : s.rows.length = x.nrows := by rw [hsrows, Lists.length_filterMap_idx _ _ hlt, hol]
  have hw' : ∀ q ∈ s.rows, q ∈ x.rows := by
    intro q hq
    rw [hsrows] at hq
    obtain ⟨i, _, hi⟩ := List.mem_filterMap.mp hq
    exact List.mem_of_getElem? hi
  have hperm : (s.rows.zip s.order).Perm (x.rows.zip (List.range x.nrows)) := by
    have h1 := Lists.gather_zip x.rows (List.range x.nrows) s.order hlt (by simpa [DMat.nrows] using hlt)
    have h2 : s.order.filterMap ((List.range x.nrows)[·]?) = s.order := by
      conv_rhs => rw [← List.filterMap_some (l := s.order)]
      apply List.filterMap_congr
      intro i hi
      exact List.getElem?_range (hlt i hi)
    rw [h2, ← hsrows] at h1
    rw [← h1]
    exact Lists.gather_perm _ _ (by simpa [DMat.nrows] using hord)
  obtain ⟨l, hlB, hlrun⟩ := run x.ncols leafSize hL hc x.nrows (s.rows.take (x.nrows / 2)) (s.order.take (x.nrows / 2))
    ⟨lo, hi.set 0 s.value⟩ (by rw [List.length_take]; omega) (fun q hq => hx q (hw' q (List.mem_of_mem_take hq)))
    (by rw [List.length_take, List.length_take]; omega)
  obtain ⟨r, hrB, hrrun⟩ := run x.ncols leafSize hL hc x.nrows (s.rows.drop (x.nrows / 2)) (s.order.drop (x.nrows / 2))
    ⟨lo.set 0 s.value, hi⟩ (by rw [List.length_drop]; omega) (fun q hq => hx q (hw' q (List.mem_of_mem_drop hq)))
    (by rw [List.length_drop, List.length_drop]; omega)
  have hsl := hlB.size_le (by rw [List.length_take]; omega)
  have hsr := hrB.size_le (by rw [List.length_drop]; omega)
  rw [List.length_take] at hsl
  rw [List.length_drop] at hsr
  obtain ⟨f, hf⟩ : ∃ f, 2 * x.nrows = r.size + (l.size + f) := ⟨2 * x.nrows - (r.size + l.size), by omega⟩
  have hz : s.rows.zip s.order = (s.rows.take (x.nrows / 2)).zip (s.order.take (x.nrows / 2)) ++
      (s.rows.drop (x.nrows / 2)).zip (s.order.drop (x.nrows / 2)) := by
    rw [← List.zip_append (by simp; omega), List.take_append_drop, List.take_append_drop]
  refine ⟨_, .branch ⟨lo, hi.set 0 s.value⟩ ⟨lo.set 0 s.value, hi⟩ l r, ?_, ⟨rfl, ?_, ?_, ?_, ?_, ?_, ⟨_, _, _, _, rfl⟩, ?_⟩⟩
  · unfold build
    rw [hlo, hhi, hs]
    simp only [Res.bind_ok]
    rw [hf, hrrun _ _ _ false 0 _ _ _ rfl rfl (by simp)]
    rw [hlrun _ _ _ true 0 _ _ _ rfl rfl (by simp)]
    have : ∀ (f : Nat) (v : List (Node α)), buildLoop x.ncols leafSize f [] v = .ok v := by intro f v; cases f <;> rfl
    rw [this]
    simp [T.flat, setChild, T.length_flat, Nat.add_comm]
  · rw [T.entries_branch]
    exact List.perm_append_comm.trans (((hlB.entries_perm.append hrB.entries_perm).trans (hz ▸ List.Perm.refl _)).trans hperm)
  · intro p hp
    simp only [T.leaves, List.mem_append] at hp
    rcases hp with hp | hp
    · exact hrB.leaves_size (by rw [List.length_drop]; omega) (by rw [List.length_drop, List.length_drop]; omega) p hp
    · exact hlB.leaves_size (by rw [List.length_take]; omega) (by rw [List.length_take, List.length_take]; omega) p hp
  · intro h5 h6 p hp
    simp only [T.leaves, List.mem_append] at hp
    rcases hp with hp | hp
    · exact hrB.leaves_ge_three h5 (by rw [List.length_drop]; omega) p hp
    · exact hlB.leaves_ge_three h5 (by rw [List.length_take]; omega) p hp
  · exact ⟨⟨hll, by simpa using hhl, by simpa using hll, hhl⟩, hlB.wide hll (by simpa using hhl),
      hrB.wide (by simpa using hll) hhl⟩
  · intro h0
    rw [← haxis] at h0
    rw [h0] at hle hge
    have h1 : ∀ q ∈ s.rows.take (x.nrows / 2), InRect ⟨lo, hi.set 0 s.value⟩ q := fun q hq =>
      (hin q (hw' q (List.mem_of_mem_take hq))).cut_hi 0 s.value (hle q hq)
    have h2 : ∀ q ∈ s.rows.drop (x.nrows / 2), InRect ⟨lo.set 0 s.value, hi⟩ q := fun q hq =>
      (hin q (hw' q (List.mem_of_mem_drop hq))).cut_lo 0 s.value (hge q hq)
    exact ⟨⟨fun e he => h1 _ (mem_entries_row hlB he), fun e he => h2 _ (mem_entries_row hrB he)⟩,
      hlB.boxed h1, hrB.boxed h2⟩
  · rintro lr rr l' r' e
    cases e
    have e1 := hlB.halved
    have e2 := hrB.halved
    rw [List.length_take, hrl, Nat.min_eq_left (by omega)] at e1
    rw [List.length_drop, hrl] at e2
    exact ⟨e1, e2⟩

theorem build_ub (x : DMat α) (hx : x.WF) (leafSize : Nat) (h : x.nrows < 3 ∨ x.ncols = 0 ∨ leafSize < 2) :
    build x leafSize = .ub := by
  unfold build
  by_cases hn : x.nrows = 0
  · by_cases hc : x.ncols = 0
    · have hcols : x.cols = [] := by simp [DMat.cols, hc]
      rw [hcols]
      simp [mapRes, sortRows_ub x hx (Or.inr hc)]
    · have : ∃ c cs, x.cols = c :: cs ∧ c = [] := by
        have hl := DMat.length_cols x
        match hcs : x.cols with
        | [] => rw [hcs] at hl; simp at hl; omega
        | c :: cs =>
          refine ⟨c, cs, rfl, List.length_eq_zero_iff.mp ?_⟩
          rw [DMat.length_of_mem_cols hx (by rw [hcs]; simp), hn]
      obtain ⟨c, cs, e, rfl⟩ := this
      rw [e]
      simp [mapRes, minCoeff]
  · obtain ⟨lo, hi, hlo, hhi, hll, hhl, hin⟩ := bounding x hx (by omega)
    rw [hlo, hhi]
    simp only [Res.bind_ok]
    by_cases h0 : x.nrows < 3 ∨ x.ncols = 0
    · rw [sortRows_ub x hx h0]; rfl
    · push Not at h0
      have hL : leafSize ≤ 1 := by omega
      obtain ⟨s, hs, haxis, hax, hord, hsrows, hle, hge⟩ := sortRows_ok x hx (by omega) h0.1
      have hlt : ∀ i ∈ s.order, i < x.rows.length := fun i hi => List.mem_range.mp (hord.mem_iff.mp hi)
      have hol : s.order.length = x.nrows := by simpa using hord.length_eq
      have hrl : s.rows.length = x.nrows := by rw [hsrows, Lists.length_filterMap_idx _ _ hlt, hol]
      have hw' : ∀ q ∈ s.rows, q.length = x.ncols := by
        intro q hq
        rw [hsrows] at hq
        obtain ⟨i, _, hi⟩ := List.mem_filterMap.mp hq
        exact hx q (List.mem_of_getElem? hi)
      rw [hs]
      simp only [Res.bind_ok]
      exact buildLoop_small_leaf x.ncols leafSize hL (by omega) x.nrows _ _ (by rw [List.length_drop]; omega)
        (by rw [List.length_drop]; omega) (fun q hq => hw' q (List.mem_of_mem_drop hq))
        (by rw [List.length_drop, List.length_drop]; omega) _ _ _ _ _ _ _ _ (by rw [List.length_drop]; omega) rfl rfl

end OpenML.KDTree
