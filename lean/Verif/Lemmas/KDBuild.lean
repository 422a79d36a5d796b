import Verif.Lemmas.KDSort

set_option linter.unusedSectionVars false

namespace OpenML.KDTree

/-- The tree a node vector stands for. -/
inductive T (α : Type) where
  | leaf (rows : List (List α)) (idx : List Nat)
  | branch (lr rr : Rect α) (l r : T α)

namespace T
variable {α : Type}

/-- Number of nodes. -/
def size : T α → Nat
  | leaf _ _ => 1
  | branch _ _ l r => 1 + r.size + l.size

/-- Node vector holding the tree from position `off` on: root, right subtree, left subtree. -/
def flat : T α → Nat → List (Node α)
  | leaf rows idx, _ => [⟨0, 0, some (rows, idx), none⟩]
  | branch lr rr l r, off => ⟨((off + 1 + r.size : Nat) : Int), ((off + 1 : Nat) : Int), none, some (lr, rr)⟩ ::
      (r.flat (off + 1) ++ l.flat (off + 1 + r.size))

/-- Leaves, right to left as they lie in the vector. -/
def leaves : T α → List (List (List α) × List Nat)
  | leaf rows idx => [(rows, idx)]
  | branch _ _ l r => r.leaves ++ l.leaves

/-- All rows with their row numbers. -/
def entries (t : T α) : List (List α × Nat) := t.leaves.flatMap fun p => p.1.zip p.2

theorem length_flat (t : T α) (off : Nat) : (t.flat off).length = t.size := by
  induction t generalizing off with
  | leaf => rfl
  | branch lr rr l r ihl ihr => simp [flat, size, ihl, ihr]; omega

theorem leaves_flat (t : T α) (off : Nat) : (t.flat off).filterMap Node.leaf = t.leaves := by
  induction t generalizing off with
  | leaf => rfl
  | branch lr rr l r ihl ihr => simp [flat, leaves, ihl, ihr]

theorem entries_branch (lr rr : Rect α) (l r : T α) : (branch lr rr l r).entries = r.entries ++ l.entries := by
  simp [entries, leaves]

end T

variable {α : Type} [CommRing α] [LinearOrder α]

/-- The trees the construction loop produces for given rows, row numbers and rectangle. -/
inductive Built (ncols leafSize : Nat) : Rect α → List (List α) → List Nat → T α → Prop
  | leaf (rect : Rect α) (rows : List (List α)) (idx : List Nat) (h : rows.length ≤ leafSize) :
      Built ncols leafSize rect rows idx (.leaf rows idx)
  | branch (rect : Rect α) (rows rows' : List (List α)) (idx idx' : List Nat) (axis : Nat) (v : α) (l r : T α)
      (hsize : leafSize < rows.length) (h3 : 3 ≤ rows.length) (hperm : (rows'.zip idx').Perm (rows.zip idx))
      (hrl : rows'.length = rows.length) (hil : idx'.length = rows.length) (hax : axis < ncols)
      (hleft : ∀ q ∈ rows'.take (rows.length / 2), ∀ w, q[axis]? = some w → w ≤ v)
      (hright : ∀ q ∈ rows'.drop (rows.length / 2), ∀ w, q[axis]? = some w → v ≤ w)
      (hl : Built ncols leafSize ⟨rect.lo, rect.hi.set axis v⟩ (rows'.take (rows.length / 2))
        (idx'.take (rows.length / 2)) l)
      (hr : Built ncols leafSize ⟨rect.lo.set axis v, rect.hi⟩ (rows'.drop (rows.length / 2))
        (idx'.drop (rows.length / 2)) r) :
      Built ncols leafSize rect rows idx
        (.branch ⟨rect.lo, rect.hi.set axis v⟩ ⟨rect.lo.set axis v, rect.hi⟩ l r)

/-- Storing the position of a new child in its parent. -/
def setChild (isLeft : Bool) (p : Node α) (n : Nat) : Node α :=
  if isLeft then { p with left := n } else { p with right := n }

/-- One iteration on a node that is split. -/
theorem buildLoop_split (ncols leafSize fuel : Nat) (rows : List (List α)) (idx : List Nat) (isLeft : Bool) (index : Nat)
    (stk : List (Info α)) (vec : List (Node α)) (p : Node α) (lr rr : Rect α) (hp : vec[index]? = some p)
    (hrects : p.rects = some (lr, rr)) (hsz : ¬ rows.length ≤ leafSize) (s : Sorted α)
    (hs : sortRows ⟨ncols, rows⟩ = .ok s) (idx' : List Nat) (hidx : mapRes (readAt idx) s.order = .ok idx') :
    buildLoop ncols leafSize (fuel + 1) (⟨isLeft, index, idx, rows⟩ :: stk) vec =
      buildLoop ncols leafSize fuel
        (⟨false, vec.length, idx'.drop (rows.length / 2), s.rows.drop (rows.length / 2)⟩ ::
          ⟨true, vec.length, idx'.take (rows.length / 2), s.rows.take (rows.length / 2)⟩ :: stk)
        (vec.set index (setChild isLeft p vec.length) ++ [⟨-1, -1, none, some
          (⟨(if isLeft then lr else rr).lo, (if isLeft then lr else rr).hi.set s.axis s.value⟩,
            ⟨(if isLeft then lr else rr).lo.set s.axis s.value, (if isLeft then lr else rr).hi⟩)⟩]) := by
  cases p with
  | mk pl pr pleaf prects =>
    simp only at hrects
    subst hrects
    simp only [buildLoop, hp]
    rw [if_neg hsz, hs]
    simp only [Res.bind_ok]
    rw [hidx]
    rfl

theorem run (ncols leafSize : Nat) (hL : 2 ≤ leafSize) (hc : 0 < ncols) (n : Nat) :
    ∀ (rows : List (List α)) (idx : List Nat) (rect : Rect α), rows.length ≤ n → (∀ q ∈ rows, q.length = ncols) →
      idx.length = rows.length →
      ∃ t : T α, Built ncols leafSize rect rows idx t ∧
        ∀ fuel stk vec isLeft index p lr rr, vec[index]? = some p → p.rects = some (lr, rr) →
          rect = (if isLeft then lr else rr) →
          buildLoop ncols leafSize (t.size + fuel) (⟨isLeft, index, idx, rows⟩ :: stk) vec =
            buildLoop ncols leafSize fuel stk (vec.set index (setChild isLeft p vec.length) ++ t.flat vec.length) := by
  induction n with
  | zero =>
    intro rows idx rect hn hw hi
    refine ⟨.leaf rows idx, .leaf rect rows idx (by omega), ?_⟩
    intro fuel stk vec isLeft index p lr rr hp hr hrect
    rw [T.size, Nat.add_comm]
    simp only [buildLoop, hp]
    rw [if_pos (by omega)]
    rfl
  | succ n ih =>
    intro rows idx rect hn hw hi
    by_cases hsz : rows.length ≤ leafSize
    · refine ⟨.leaf rows idx, .leaf rect rows idx hsz, ?_⟩
      intro fuel stk vec isLeft index p lr rr hp hr hrect
      rw [T.size, Nat.add_comm]
      simp only [buildLoop, hp]
      rw [if_pos hsz]
      rfl
    · obtain ⟨s, hs, -, hax, hord, hsrows, hle, hge⟩ := sortRows_ok (⟨ncols, rows⟩ : DMat α) hw hc
        (by simp [DMat.nrows]; omega)
      simp only [DMat.nrows] at hax hord hsrows hle hge
      have hlt : ∀ i ∈ s.order, i < rows.length := fun i hi => List.mem_range.mp (hord.mem_iff.mp hi)
      have hidx : mapRes (readAt idx) s.order = .ok (s.order.filterMap (idx[·]?)) :=
        Lists.mapRes_readAt _ _ (by rw [hi]; exact hlt)
      have hol : s.order.length = rows.length := by simpa using hord.length_eq
      have hrl : s.rows.length = rows.length := by rw [hsrows, Lists.length_filterMap_idx _ _ hlt, hol]
      have hil : (s.order.filterMap (idx[·]?)).length = rows.length := by
        rw [Lists.length_filterMap_idx _ _ (by rw [hi]; exact hlt), hol]
      have hperm : (s.rows.zip (s.order.filterMap (idx[·]?))).Perm (rows.zip idx) := by
        rw [hsrows, ← Lists.gather_zip _ _ _ hlt (by rw [hi]; exact hlt)]
        exact Lists.gather_perm _ _ (by simpa [hi] using hord)
      have hw' : ∀ q ∈ s.rows, q.length = ncols := by
        intro q hq
        rw [hsrows] at hq
        obtain ⟨i, _, hi⟩ := List.mem_filterMap.mp hq
        exact hw q (List.mem_of_getElem? hi)
      obtain ⟨l, hlB, hlrun⟩ := ih (s.rows.take (rows.length / 2)) ((s.order.filterMap (idx[·]?)).take (rows.length / 2))
        ⟨rect.lo, rect.hi.set s.axis s.value⟩ (by rw [List.length_take]; omega) (fun q hq => hw' q (List.mem_of_mem_take hq))
        (by rw [List.length_take, List.length_take]; omega)
      obtain ⟨r, hrB, hrrun⟩ := ih (s.rows.drop (rows.length / 2)) ((s.order.filterMap (idx[·]?)).drop (rows.length / 2))
        ⟨rect.lo.set s.axis s.value, rect.hi⟩ (by rw [List.length_drop]; omega)
        (fun q hq => hw' q (List.mem_of_mem_drop hq)) (by rw [List.length_drop, List.length_drop]; omega)
      refine ⟨.branch ⟨rect.lo, rect.hi.set s.axis s.value⟩ ⟨rect.lo.set s.axis s.value, rect.hi⟩ l r,
        .branch rect rows s.rows idx _ s.axis s.value l r (by omega) (by omega) hperm hrl hil hax hle hge hlB hrB, ?_⟩
      intro fuel stk vec isLeft index p lr rr hp hrects hrect
      have hfuel : (T.branch ⟨rect.lo, rect.hi.set s.axis s.value⟩ ⟨rect.lo.set s.axis s.value, rect.hi⟩ l r).size + fuel =
          (r.size + (l.size + fuel)) + 1 := by simp only [T.size]; omega
      rw [hfuel]
      rw [buildLoop_split _ _ _ _ _ _ _ _ _ _ _ _ hp hrects hsz s hs _ hidx, ← hrect]
      set vs := vec.set index (setChild isLeft p vec.length) with hvs
      have hvl : vs.length = vec.length := by simp [hvs]
      set bn : Node α := ⟨-1, -1, none, some (⟨rect.lo, rect.hi.set s.axis s.value⟩, ⟨rect.lo.set s.axis s.value, rect.hi⟩)⟩
        with hbn
      have h1 : (vs ++ [bn])[vec.length]? = some bn := by rw [← hvl]; simp
      rw [hrrun _ _ (vs ++ [bn]) false vec.length bn _ _ h1 rfl (by simp)]
      have e1 : (vs ++ [bn]).set vec.length (setChild false bn (vs ++ [bn]).length) =
          vs ++ [setChild false bn (vec.length + 1)] := by
        rw [List.set_append_right _ _ (by omega)]
        simp [hvl]
      have e2 : (vs ++ [bn]).length = vec.length + 1 := by simp [hvl]
      rw [e1, e2]
      have h2 : (vs ++ [setChild false bn (vec.length + 1)] ++ r.flat (vec.length + 1))[vec.length]? =
          some (setChild false bn (vec.length + 1)) := by
        rw [List.getElem?_append_left (by simp [hvl]), ← hvl]; simp
      rw [hlrun _ _ _ true vec.length _ _ _ h2 rfl (by simp)]
      have e3 : (vs ++ [setChild false bn (vec.length + 1)] ++ r.flat (vec.length + 1)).length =
          vec.length + 1 + r.size := by simp only [List.length_append, hvl, T.length_flat, List.length_singleton]
      rw [e3]
      have e4 : (vs ++ [setChild false bn (vec.length + 1)] ++ r.flat (vec.length + 1)).set vec.length
          (setChild true (setChild false bn (vec.length + 1)) (vec.length + 1 + r.size)) =
          vs ++ [setChild true (setChild false bn (vec.length + 1)) (vec.length + 1 + r.size)] ++
            r.flat (vec.length + 1) := by
        rw [List.set_append_left _ _ (by simp [hvl]), List.set_append_right _ _ (by omega)]
        simp [hvl]
      rw [e4]
      congr 1
      simp [T.flat, setChild, hbn, hvs]

/-- Every tree built from at least one row has at most `2 * rows - 1` nodes. -/
theorem Built.size_le {ncols leafSize : Nat} {rect : Rect α} {rows : List (List α)} {idx : List Nat} {t : T α}
    (h : Built ncols leafSize rect rows idx t) (h1 : 1 ≤ rows.length) : t.size + 1 ≤ 2 * rows.length := by
  induction h with
  | leaf rect rows idx h => simp only [T.size]; omega
  | branch rect rows rows' idx idx' axis v l r hsize h3 hperm hrl hil hax hleft hright hl hr ihl ihr =>
    simp only [List.length_take, List.length_drop] at ihl ihr
    have := ihl (by omega)
    have := ihr (by omega)
    simp only [T.size]
    omega

/-- Sizes halve on the way down, and only nodes with more than `leafSize` rows are split. -/
def T.Halved {α : Type} (leafSize : Nat) : Nat → T α → Prop
  | n, .leaf rows _ => rows.length = n ∧ n ≤ leafSize
  | n, .branch _ _ l r => leafSize < n ∧ l.Halved leafSize (n / 2) ∧ r.Halved leafSize (n - n / 2)

theorem Built.halved {ncols leafSize : Nat} {rect : Rect α} {rows : List (List α)} {idx : List Nat} {t : T α}
    (h : Built ncols leafSize rect rows idx t) : t.Halved leafSize rows.length := by
  induction h with
  | leaf rect rows idx h => exact ⟨rfl, h⟩
  | branch rect rows rows' idx idx' axis v l r hsize h3 hperm hrl hil hax hleft hright hl hr ihl ihr =>
    rw [List.length_take, hrl, Nat.min_eq_left (by omega)] at ihl
    rw [List.length_drop, hrl] at ihr
    exact ⟨hsize, ihl, ihr⟩

/-- The leaves contain every row once, together with its row number. -/
theorem Built.entries_perm {ncols leafSize : Nat} {rect : Rect α} {rows : List (List α)} {idx : List Nat} {t : T α}
    (h : Built ncols leafSize rect rows idx t) : t.entries.Perm (rows.zip idx) := by
  induction h with
  | leaf rect rows idx h => simp [T.entries, T.leaves]
  | branch rect rows rows' idx idx' axis v l r hsize h3 hperm hrl hil hax hleft hright hl hr ihl ihr =>
    rw [T.entries_branch]
    refine List.perm_append_comm.trans (((ihl.append ihr).trans ?_).trans hperm)
    have hz : (rows'.zip idx') = (rows'.take (rows.length / 2)).zip (idx'.take (rows.length / 2)) ++
        (rows'.drop (rows.length / 2)).zip (idx'.drop (rows.length / 2)) := by
      rw [← List.zip_append (by simp; omega), List.take_append_drop, List.take_append_drop]
    rw [hz]

/-- Leaf sizes and the pairing of rows with row numbers. -/
theorem Built.leaves_size {ncols leafSize : Nat} {rect : Rect α} {rows : List (List α)} {idx : List Nat} {t : T α}
    (h : Built ncols leafSize rect rows idx t) (h1 : 1 ≤ rows.length) (hi : idx.length = rows.length) :
    ∀ p ∈ t.leaves, p.1.length ≤ leafSize ∧ 1 ≤ p.1.length ∧ p.2.length = p.1.length := by
  induction h with
  | leaf rect rows idx h =>
    intro p hp
    simp only [T.leaves, List.mem_singleton] at hp
    subst hp
    exact ⟨h, h1, hi⟩
  | branch rect rows rows' idx idx' axis v l r hsize h3 hperm hrl hil hax hleft hright hl hr ihl ihr =>
    intro p hp
    simp only [T.leaves, List.mem_append] at hp
    rcases hp with hp | hp
    · exact ihr (by rw [List.length_drop]; omega) (by rw [List.length_drop, List.length_drop]; omega) p hp
    · exact ihl (by rw [List.length_take]; omega) (by rw [List.length_take, List.length_take]; omega) p hp

/-- With `leaf_size ≥ 5` every leaf below a node of at least three rows holds at least three rows. -/
theorem Built.leaves_ge_three {ncols leafSize : Nat} {rect : Rect α} {rows : List (List α)} {idx : List Nat} {t : T α}
    (h : Built ncols leafSize rect rows idx t) (h5 : 5 ≤ leafSize) (h1 : 3 ≤ rows.length) :
    ∀ p ∈ t.leaves, 3 ≤ p.1.length := by
  induction h with
  | leaf rect rows idx h =>
    intro p hp
    simp only [T.leaves, List.mem_singleton] at hp
    subst hp
    exact h1
  | branch rect rows rows' idx idx' axis v l r hsize h3 hperm hrl hil hax hleft hright hl hr ihl ihr =>
    intro p hp
    simp only [T.leaves, List.mem_append] at hp
    rcases hp with hp | hp
    · exact ihr (by rw [List.length_drop]; omega) p hp
    · exact ihl (by rw [List.length_take]; omega) p hp

/-- With `leaf_size ≤ 1` the construction runs into a node of two rows. -/
theorem buildLoop_small_leaf (ncols leafSize : Nat) (hL : leafSize ≤ 1) (hc : 0 < ncols) (n : Nat) :
    ∀ (rows : List (List α)) (idx : List Nat), rows.length ≤ n → 2 ≤ rows.length → (∀ q ∈ rows, q.length = ncols) →
      idx.length = rows.length → ∀ fuel stk vec isLeft index p lr rr, rows.length ≤ fuel → vec[index]? = some p →
        p.rects = some (lr, rr) →
        buildLoop ncols leafSize fuel (⟨isLeft, index, idx, rows⟩ :: stk) vec = .ub := by
  induction n with
  | zero => intro rows idx h1 h2; omega
  | succ n ih =>
    intro rows idx hn h2 hw hi fuel stk vec isLeft index p lr rr hf hp hrects
    obtain ⟨fuel, rfl⟩ : ∃ f, fuel = f + 1 := ⟨fuel - 1, by omega⟩
    by_cases h3 : rows.length = 2
    · simp only [buildLoop, hp]
      rw [if_neg (by omega), sortRows_ub (⟨ncols, rows⟩ : DMat α) hw (Or.inl (by simp [DMat.nrows, h3]))]
      rfl
    · obtain ⟨s, hs, -, hax, hord, hsrows, -, -⟩ := sortRows_ok (⟨ncols, rows⟩ : DMat α) hw hc
        (by simp [DMat.nrows]; omega)
      simp only [DMat.nrows] at hax hord hsrows
      have hlt : ∀ i ∈ s.order, i < rows.length := fun i hi => List.mem_range.mp (hord.mem_iff.mp hi)
      have hidx : mapRes (readAt idx) s.order = .ok (s.order.filterMap (idx[·]?)) :=
        Lists.mapRes_readAt _ _ (by rw [hi]; exact hlt)
      have hol : s.order.length = rows.length := by simpa using hord.length_eq
      have hrl : s.rows.length = rows.length := by rw [hsrows, Lists.length_filterMap_idx _ _ hlt, hol]
      have hil : (s.order.filterMap (idx[·]?)).length = rows.length := by
        rw [Lists.length_filterMap_idx _ _ (by rw [hi]; exact hlt), hol]
      have hw' : ∀ q ∈ s.rows, q.length = ncols := by
        intro q hq
        rw [hsrows] at hq
        obtain ⟨i, _, hi⟩ := List.mem_filterMap.mp hq
        exact hw q (List.mem_of_getElem? hi)
      rw [buildLoop_split _ _ _ _ _ _ _ _ _ _ _ _ hp hrects (by omega) s hs _ hidx]
      refine ih (s.rows.drop (rows.length / 2)) ((s.order.filterMap (idx[·]?)).drop (rows.length / 2)) ?_ ?_
        (fun q hq => hw' q (List.mem_of_mem_drop hq)) ?_ _ _ _ _ _ _ _ _ ?_
        (?_ : _ = some (⟨-1, -1, none, some (⟨(if isLeft then lr else rr).lo, (if isLeft then lr else rr).hi.set s.axis s.value⟩,
            ⟨(if isLeft then lr else rr).lo.set s.axis s.value, (if isLeft then lr else rr).hi⟩)⟩ : Node α)) rfl
      · rw [List.length_drop]; omega
      · rw [List.length_drop]; omega
      · rw [List.length_drop, List.length_drop]; omega
      · rw [List.length_drop]; omega
      · rw [List.getElem?_append_right (by simp)]; simp

end OpenML.KDTree
