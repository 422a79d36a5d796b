import Verif.Model.MatOps
import Verif.Lemmas.Extreme
import Verif.Lemmas.DMat
import Mathlib.Tactic.Ring

/-!
# C11, C12: small matrix helpers
-/

namespace OpenML
open MatOps Spec

section
variable {α : Type} [LinearOrder α]

/-- Helper: lifting a per-line result to all lines. -/
theorem mapRes_forall₂ {β : Type} {f : List α → Res β} {P : List α → β → Prop} (lines : List (List α))
    (h : ∀ l ∈ lines, ∃ b, f l = .ok b ∧ P l b) : ∃ bs, mapRes f lines = .ok bs ∧ List.Forall₂ P lines bs := by
  induction lines with
  | nil => exact ⟨[], rfl, List.Forall₂.nil⟩
  | cons l ls ih =>
    obtain ⟨b, hb, hp⟩ := h l (by simp)
    obtain ⟨bs, hbs, hps⟩ := ih fun q hq => h q (by simp [hq])
    exact ⟨b :: bs, by simp [mapRes, hb, hbs], List.Forall₂.cons hp hps⟩

/-- C11, axis 1. For a matrix with at least one column each row yields the first position of its greatest (least) entry. -/
theorem C11_arg_rows (x : DMat α) (hx : x.WF) (hc : 0 < x.ncols) :
    (∃ ps, argmax x 1 = .ok ps ∧ List.Forall₂ IsFirstMax x.rows ps) ∧
    (∃ ps, argmin x 1 = .ok ps ∧ List.Forall₂ IsFirstMin x.rows ps) := by
  have hne : ∀ l ∈ x.rows, l ≠ [] := fun l hl h => by have := hx l hl; rw [h] at this; simp at this; omega
  constructor
  · obtain ⟨ps, h1, h2⟩ := mapRes_forall₂ (f := maxCoeffIdx) (P := IsFirstMax) x.rows
      (fun l hl => maxCoeffIdx_spec l (hne l hl))
    exact ⟨ps, by simpa [argmax] using h1, h2⟩
  · obtain ⟨ps, h1, h2⟩ := mapRes_forall₂ (f := minCoeffIdx) (P := IsFirstMin) x.rows
      (fun l hl => minCoeffIdx_spec l (hne l hl))
    exact ⟨ps, by simpa [argmin] using h1, h2⟩

/-- C11, axis 0. For a matrix with at least one row each column yields the first position of its greatest (least) entry. -/
theorem C11_arg_columns (x : DMat α) (hx : x.WF) (hr : 0 < x.nrows) :
    (∃ ps, argmax x 0 = .ok ps ∧ ps.length = x.ncols ∧
      ∀ j p, j < x.ncols → ps[j]? = some p → IsFirstMax (x.col j) p) ∧
    (∃ ps, argmin x 0 = .ok ps ∧ ps.length = x.ncols ∧
      ∀ j p, j < x.ncols → ps[j]? = some p → IsFirstMin (x.col j) p) := by
  have hne : ∀ l ∈ x.cols, l ≠ [] := fun l hl h => by
    have := DMat.length_of_mem_cols hx hl; rw [h] at this; simp at this; omega
  constructor
  · obtain ⟨ps, h1, h2⟩ := mapRes_forall₂ (f := maxCoeffIdx) (P := IsFirstMax) x.cols
      (fun l hl => maxCoeffIdx_spec l (hne l hl))
    refine ⟨ps, by simpa [argmax] using h1, by rw [← h2.length_eq, DMat.length_cols], ?_⟩
    intro j p hj hp
    obtain ⟨hlp, rfl⟩ := List.getElem?_eq_some_iff.mp hp
    have := List.Forall₂.get h2 (by rw [DMat.length_cols]; exact hj) hlp
    simpa [DMat.cols] using this
  · obtain ⟨ps, h1, h2⟩ := mapRes_forall₂ (f := minCoeffIdx) (P := IsFirstMin) x.cols
      (fun l hl => minCoeffIdx_spec l (hne l hl))
    refine ⟨ps, by simpa [argmin] using h1, by rw [← h2.length_eq, DMat.length_cols], ?_⟩
    intro j p hj hp
    obtain ⟨hlp, rfl⟩ := List.getElem?_eq_some_iff.mp hp
    have := List.Forall₂.get h2 (by rw [DMat.length_cols]; exact hj) hlp
    simpa [DMat.cols] using this

/-- C11, axis -1. A non-empty matrix yields the first row-major position of its greatest (least) entry. -/
theorem C11_arg_flat (x : DMat α) (hx : x.rows.flatten ≠ []) :
    (∃ p, argmax x (-1) = .ok [p] ∧ IsFirstMax x.rows.flatten p) ∧
    (∃ p, argmin x (-1) = .ok [p] ∧ IsFirstMin x.rows.flatten p) := by
  obtain ⟨p, h1, h2⟩ := maxCoeffIdx_spec x.rows.flatten hx
  obtain ⟨q, h3, h4⟩ := minCoeffIdx_spec x.rows.flatten hx
  exact ⟨⟨p, by simp [argmax, flattenMat, h1], h2⟩, ⟨q, by simp [argmin, flattenMat, h3], h4⟩⟩

/-- C11. Row-major positions: entry `j` of row `i` stands at `i * ncols + j`. -/
theorem C11_flatten_position (x : DMat α) (hx : x.WF) (i j : Nat) (hi : i < x.nrows) (hj : j < x.ncols) :
    (flattenMat x)[i * x.ncols + j]? = x.rows[i]?.bind (·[j]?) := by
  obtain ⟨nc, rows⟩ := x
  simp only [DMat.WF, DMat.nrows, flattenMat] at *
  induction rows generalizing i with
  | nil => simp at hi
  | cons r rs ih =>
    have hr : r.length = nc := hx r (by simp)
    rw [List.flatten_cons]
    cases i with
    | zero => simp [List.getElem?_append_left (by omega : j < r.length)]
    | succ i =>
      have : (i + 1) * nc + j = r.length + (i * nc + j) := by rw [hr]; ring_nf
      rw [this, List.getElem?_append_right (by omega)]
      simpa using ih i (fun q hq => hx q (by simp [hq])) (by simpa using hi)

/-- C11. Other axes are rejected; a line without entries is undefined. -/
theorem C11_arg_rejects (x : DMat α) (axis : Int) (h1 : axis ≠ 1) (h0 : axis ≠ 0) (hm : axis ≠ -1) :
    argmax x axis = .throw .invalidArgument ∧ argmin x axis = .throw .invalidArgument := by
  simp [argmax, argmin, h1, h0, hm]

theorem C11_arg_empty_line (x : DMat α) (hr : [] ∈ x.rows) (hx : x.WF) :
    argmax x 1 = .ub ∧ argmin x 1 = .ub := by
  have h0 : x.ncols = 0 := by rw [← hx _ hr]; rfl
  obtain ⟨r, rs, hrs⟩ := List.exists_cons_of_ne_nil (List.ne_nil_of_mem hr)
  have hr0 : r = [] := List.eq_nil_of_length_eq_zero (by rw [hx r (by simp [hrs]), h0])
  simp [argmax, argmin, hrs, hr0, mapRes, maxCoeffIdx, minCoeffIdx]

example : argmax (⟨3, [[1, 7, 7], [4, 2, 4]]⟩ : DMat Nat) 1 = .ok [1, 0] ∧
    argmin (⟨3, [[1, 7, 7], [4, 2, 4]]⟩ : DMat Nat) 0 = .ok [0, 1, 1] ∧
    argmax (⟨3, [[1, 7, 7], [4, 2, 4]]⟩ : DMat Nat) (-1) = .ok [1] ∧
    argmin (⟨3, [[3, 7, 7], [4, 2, 4]]⟩ : DMat Nat) (-1) = .ok [4] ∧
    (⟨3, [[1, 7, 7], [4, 2, 4]]⟩ : DMat Nat).WF := by decide
example : argmax (⟨0, [[]]⟩ : DMat Nat) 1 = .ub := by decide

/-- C12. `clip(x, max, min)` maps every entry to the nearest value of the interval: it stays inside, values inside are
unchanged and values outside go to the bound they exceed. -/
theorem C12_clip (hi lo : α) (h : lo ≤ hi) (x : DMat α) :
    (clip hi lo x).ncols = x.ncols ∧
    List.Forall₂ (List.Forall₂ fun a b => lo ≤ b ∧ b ≤ hi ∧ (lo ≤ a → a ≤ hi → b = a) ∧ (a < lo → b = lo) ∧
      (hi < a → b = hi)) x.rows (clip hi lo x).rows ∧
    clip hi lo (clip hi lo x) = clip hi lo x := by
  refine ⟨rfl, ?_, ?_⟩
  · simp only [clip]
    rw [List.forall₂_map_right_iff, List.forall₂_same]
    intro r _
    rw [List.forall₂_map_right_iff, List.forall₂_same]
    intro a _
    refine ⟨le_max_right _ _, max_le (min_le_right _ _) h, ?_, ?_, ?_⟩
    · intro h1 h2; rw [min_eq_left h2, max_eq_left h1]
    · intro h1; rw [min_eq_left (h1.le.trans h), max_eq_right h1.le]
    · intro h1; rw [min_eq_right h1.le, max_eq_left h]
  · simp only [clip, List.map_map, Function.comp_def]
    congr 1
    apply List.map_congr_left
    intro r _
    apply List.map_congr_left
    intro a _
    have h1 : lo ≤ max (min a hi) lo := le_max_right _ _
    have h2 : max (min a hi) lo ≤ hi := max_le (min_le_right _ _) h
    rw [min_eq_left h2, max_eq_left h1]

/-- C12. `fmin(x, y)` is the entrywise minimum with `y`. -/
theorem C12_fmin (x : DMat α) (y : α) :
    (fmin x y).ncols = x.ncols ∧ (fmin x y).rows = x.rows.map (·.map fun a => min a y) := by
  refine ⟨rfl, ?_⟩
  simp only [fmin]
  apply List.map_congr_left
  intro r _
  apply List.map_congr_left
  intro a _
  by_cases h : y ≤ a
  · rw [if_pos h, min_eq_right h]
  · rw [if_neg h, min_eq_left (not_le.mp h).le]

end

/-- C12. `where` lists, in increasing order, exactly the positions of non-zero entries. -/
theorem C12_where {α : Type} [DecidableEq α] [Zero α] (x : List α) :
    (where' x).Pairwise (· < ·) ∧ ∀ i, i ∈ where' x ↔ ∃ a, x[i]? = some a ∧ a ≠ 0 := by
  have key : ∀ (l : List α) (k : Nat), (whereFrom l k).Pairwise (· < ·) ∧
      ∀ i, i ∈ whereFrom l k ↔ ∃ a, k ≤ i ∧ l[i - k]? = some a ∧ a ≠ 0 := by
    intro l
    induction l with
    | nil => intro k; simp [whereFrom]
    | cons b l ih =>
      intro k
      obtain ⟨h1, h2⟩ := ih (k + 1)
      have hge : ∀ i ∈ whereFrom l (k + 1), k < i := fun i hi => by
        obtain ⟨a, ha, _⟩ := (h2 i).mp hi; omega
      have hrest : ∀ i, i ∈ whereFrom l (k + 1) ↔ ∃ a, k < i ∧ (b :: l)[i - k]? = some a ∧ a ≠ 0 := by
        intro i
        rw [h2]
        constructor
        · rintro ⟨a, ha, hb, hc⟩
          refine ⟨a, by omega, ?_, hc⟩
          obtain ⟨d, rfl⟩ := Nat.exists_eq_add_of_le ha
          rw [show k + 1 + d - k = d + 1 by omega]
          rw [show k + 1 + d - (k + 1) = d by omega] at hb
          simpa using hb
        · rintro ⟨a, ha, hb, hc⟩
          refine ⟨a, by omega, ?_, hc⟩
          obtain ⟨d, rfl⟩ := Nat.exists_eq_add_of_lt ha
          rw [show k + d + 1 - k = d + 1 by omega] at hb
          rw [show k + d + 1 - (k + 1) = d by omega]
          simpa using hb
      unfold whereFrom
      by_cases hb : b ≠ 0
      · rw [if_pos hb]
        refine ⟨List.pairwise_cons.mpr ⟨hge, h1⟩, ?_⟩
        intro i
        rw [List.mem_cons, hrest]
        constructor
        · rintro (rfl | ⟨a, ha, hc⟩)
          · exact ⟨b, le_rfl, by simp, hb⟩
          · exact ⟨a, ha.le, hc⟩
        · rintro ⟨a, ha, hc⟩
          rcases ha.eq_or_lt with rfl | ha
          · exact Or.inl rfl
          · exact Or.inr ⟨a, ha, hc⟩
      · rw [if_neg hb]
        refine ⟨h1, ?_⟩
        intro i
        rw [hrest]
        constructor
        · rintro ⟨a, ha, hc⟩
          exact ⟨a, ha.le, hc⟩
        · rintro ⟨a, ha, hc, hd⟩
          rcases ha.eq_or_lt with rfl | ha
          · simp at hc; subst hc; exact absurd hd hb
          · exact ⟨a, ha, hc, hd⟩
  obtain ⟨h1, h2⟩ := key x 0
  exact ⟨h1, fun i => by rw [show where' x = whereFrom x 0 from rfl, h2]; simp⟩

/-- C12. `hstack` throws iff the row counts differ; otherwise entry `(i, j)` comes from the first matrix for
`j < ncols x1` and from the second one, shifted, behind. -/
theorem C12_hstack {α : Type} (x1 x2 : DMat α) (h1 : x1.WF) (h2 : x2.WF) :
    (x1.nrows ≠ x2.nrows → hstack x1 x2 = .throw .invalidArgument) ∧
    (x1.nrows = x2.nrows → ∃ y, hstack x1 x2 = .ok y ∧ y.WF ∧ y.nrows = x1.nrows ∧ y.ncols = x1.ncols + x2.ncols ∧
      ∀ (i : Nat) (r1 r2 : List α), x1.rows[i]? = some r1 → x2.rows[i]? = some r2 → y.rows[i]? = some (r1 ++ r2)) := by
  constructor
  · intro h; simp [hstack, h]
  · intro h
    refine ⟨⟨x1.ncols + x2.ncols, x1.rows.zipWith (· ++ ·) x2.rows⟩, by simp [hstack, h], ?_, ?_, rfl, ?_⟩
    · intro r hr
      rw [List.mem_iff_getElem?] at hr
      obtain ⟨i, hi⟩ := hr
      rw [List.getElem?_zipWith] at hi
      cases e1 : x1.rows[i]? with
      | none => simp [e1] at hi
      | some r1 =>
        cases e2 : x2.rows[i]? with
        | none => simp [e1, e2] at hi
        | some r2 =>
          simp [e1, e2] at hi
          subst hi
          simp [h1 r1 (List.mem_of_getElem? e1), h2 r2 (List.mem_of_getElem? e2)]
    · simp only [DMat.nrows] at h ⊢
      simp [h]
    · intro i r1 r2 e1 e2
      simp [List.getElem?_zipWith, e1, e2]

/-- C12. `vstack` throws iff the column counts differ; otherwise the rows of the first matrix are followed by those of
the second. -/
theorem C12_vstack {α : Type} (x1 x2 : DMat α) (h1 : x1.WF) (h2 : x2.WF) :
    (x1.ncols ≠ x2.ncols → vstack x1 x2 = .throw .invalidArgument) ∧
    (x1.ncols = x2.ncols → ∃ y, vstack x1 x2 = .ok y ∧ y.WF ∧ y.ncols = x1.ncols ∧ y.rows = x1.rows ++ x2.rows) := by
  constructor
  · intro h; simp [vstack, h]
  · intro h
    refine ⟨⟨x1.ncols, x1.rows ++ x2.rows⟩, by simp [vstack, h], ?_, rfl, rfl⟩
    intro r hr
    rcases List.mem_append.mp hr with hr | hr
    · exact h1 r hr
    · exact (h2 r hr).trans h.symm

/-- Entry `k` of `n` copies of a list of length `m`. -/
theorem getElem?_replicate_flatten {β : Type} (l : List β) (n i j : Nat) (hi : i < n) (hj : j < l.length) :
    (List.replicate n l).flatten[i * l.length + j]? = l[j]? := by
  induction n generalizing i with
  | zero => omega
  | succ n ih =>
    rw [List.replicate_succ, List.flatten_cons]
    cases i with
    | zero => rw [Nat.zero_mul, Nat.zero_add, List.getElem?_append_left hj]
    | succ i =>
      have : (i + 1) * l.length + j = l.length + (i * l.length + j) := by ring_nf
      rw [this, List.getElem?_append_right (by omega), Nat.add_sub_cancel_left]
      exact ih i (by omega)

/-- C12. `repeat` tiles the whole matrix (block after block) along the axis, it does not repeat element by element; any
other axis gives an empty matrix. -/
theorem C12_repeat {α : Type} (x : DMat α) (hx : x.WF) (n : Nat) :
    ((repeat' x n 0).nrows = n * x.nrows ∧ (repeat' x n 0).WF ∧
      ∀ b i : Nat, b < n → i < x.nrows → (repeat' x n 0).rows[b * x.nrows + i]? = x.rows[i]?) ∧
    ((repeat' x n 1).nrows = x.nrows ∧ (repeat' x n 1).ncols = n * x.ncols ∧ (repeat' x n 1).WF ∧
      ∀ b i j : Nat, b < n → j < x.ncols →
        (repeat' x n 1).rows[i]?.bind (·[b * x.ncols + j]?) = x.rows[i]?.bind (·[j]?)) ∧
    ∀ axis : Int, axis ≠ 0 → axis ≠ 1 → repeat' x n axis = ⟨0, []⟩ := by
  refine ⟨⟨?_, ?_, ?_⟩, ⟨?_, ?_, ?_, ?_⟩, fun a h0 h1 => by simp [repeat', h0, h1]⟩
  · simp [repeat', DMat.nrows, List.length_flatten]
  · intro r hr
    simp [repeat'] at hr ⊢
    exact hx r hr.2
  · intro b i hb hi
    simpa [repeat', DMat.nrows] using getElem?_replicate_flatten x.rows n b i hb hi
  · simp [repeat', DMat.nrows]
  · simp [repeat']
  · intro r hr
    simp [repeat'] at hr ⊢
    obtain ⟨l, hl, rfl⟩ := hr
    simp [hx l hl]
  · intro b i j hb hj
    simp only [repeat']
    rw [if_neg (by decide), if_pos trivial]
    simp only [List.getElem?_map]
    cases e : x.rows[i]? with
    | none => simp
    | some r =>
      have hr := hx r (List.mem_of_getElem? e)
      have := getElem?_replicate_flatten r n b j hb (by omega)
      rw [hr] at this
      simpa using this

/-- C12. `vec2mat` keeps every entry; it throws iff a later row has another length than the first (`invalid_argument`) or
the table is empty (`out_of_range`). -/
theorem C12_vec2mat {α : Type} (v : List (List α)) :
    (v = [] → vec2mat v = .throw .outOfRange) ∧
    ((∃ rest, v = [] :: rest) → vec2mat v = .ub) ∧
    ∀ r rest, v = r :: rest → r ≠ [] →
      ((∃ q ∈ rest, q.length ≠ r.length) → vec2mat v = .throw .invalidArgument) ∧
      ((∀ q ∈ rest, q.length = r.length) → ∃ x, vec2mat v = .ok x ∧ x.WF ∧ x.rows = v ∧ x.ncols = r.length) := by
  refine ⟨by rintro rfl; rfl, by rintro ⟨rest, rfl⟩; rfl, ?_⟩
  rintro r rest rfl hr
  cases r with
  | nil => exact absurd rfl hr
  | cons a r =>
    constructor
    · intro h
      simp only [vec2mat]
      rw [if_pos h]
    · intro h
      refine ⟨⟨(a :: r).length, (a :: r) :: rest⟩, ?_, ?_, rfl, rfl⟩
      · simp only [vec2mat]
        rw [if_neg]
        rintro ⟨q, hq, hne⟩
        exact hne (h q hq)
      · intro q hq
        rcases List.mem_cons.mp hq with rfl | hq
        · rfl
        · exact h q hq

example : clip 5 2 (⟨4, [[1, 3, 9, 5]]⟩ : DMat Nat) = ⟨4, [[2, 3, 5, 5]]⟩ := by decide
example : where' [0, 4, 0, 0, -1] = [1, 4] := by decide
example : hstack (⟨1, [[1], [2]]⟩ : DMat Nat) ⟨2, [[3, 4], [5, 6]]⟩ = .ok ⟨3, [[1, 3, 4], [2, 5, 6]]⟩ := by decide
example : repeat' (⟨2, [[1, 2]]⟩ : DMat Nat) 2 1 = ⟨4, [[1, 2, 1, 2]]⟩ ∧
    repeat' (⟨2, [[1, 2]]⟩ : DMat Nat) 2 0 = ⟨2, [[1, 2], [1, 2]]⟩ := by decide
example : vec2mat [[1, 2], [3]] = .throw .invalidArgument ∧ vec2mat [[1, 2], [3, 4]] = .ok ⟨2, [[1, 2], [3, 4]]⟩ := by
  decide

end OpenML
