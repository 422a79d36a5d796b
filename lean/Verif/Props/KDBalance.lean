import Verif.Props.KDTree

/-!
# C141: the KD-tree is balanced
-/

namespace OpenML
open KDTree

/-- The positions of the children of a node; leaves have none. -/
def kdChildren {α : Type} (nodes : List (Node α)) (left : Bool) (i : Nat) : Option Nat :=
  nodes[i]?.bind fun p => if p.leaf.isSome then none else some (if left then p.left else p.right).toNat

/-- The position reached from `i` by going left (`true`) and right (`false`). -/
def kdFollow {α : Type} (nodes : List (Node α)) : List Bool → Nat → Option Nat
  | [], i => some i
  | b :: path, i => (kdChildren nodes b i).bind (kdFollow nodes path)

namespace KDBalance

/-- The subtree at the end of a path and its position. -/
def sub {α : Type} : T α → List Bool → Nat → Option (T α × Nat)
  | t, [], off => some (t, off)
  | .leaf _ _, _ :: _, _ => none
  | .branch _ _ l r, b :: path, off => if b then sub l path (off + 1 + r.size) else sub r path (off + 1)

variable {α : Type}

/-- The head of the node vector of a tree. -/
theorem flat_cons (t : T α) (off : Nat) : ∃ p rest, t.flat off = p :: rest := by
  cases t with
  | leaf => exact ⟨_, _, rfl⟩
  | branch => exact ⟨_, _, rfl⟩

theorem follow_sub (t : T α) (path : List Bool) (pre post : List (Node α)) :
    kdFollow (pre ++ t.flat pre.length ++ post) path pre.length = (sub t path pre.length).map Prod.snd := by
  induction path generalizing t pre post with
  | nil => cases t <;> rfl
  | cons b path ih =>
    cases t with
    | leaf rows idx =>
      rw [kdFollow, kdChildren, List.append_assoc, List.getElem?_append_right le_rfl, Nat.sub_self]
      simp [T.flat, sub]
    | branch lr rr l r =>
      have h0 : (pre ++ (T.branch lr rr l r).flat pre.length ++ post)[pre.length]? =
          some ⟨((pre.length + 1 + r.size : Nat) : Int), ((pre.length + 1 : Nat) : Int), none, some (lr, rr)⟩ := by
        rw [List.append_assoc, List.getElem?_append_right le_rfl, Nat.sub_self]
        rfl
      rw [kdFollow, kdChildren, h0]
      cases b with
      | true =>
        have := ih l (pre ++ ⟨((pre.length + 1 + r.size : Nat) : Int), ((pre.length + 1 : Nat) : Int), none, some (lr, rr)⟩ ::
          r.flat (pre.length + 1)) post
        have hl : (pre ++ (⟨((pre.length + 1 + r.size : Nat) : Int), ((pre.length + 1 : Nat) : Int), none, some (lr, rr)⟩ : Node α) ::
          r.flat (pre.length + 1)).length = pre.length + 1 + r.size := by
          simp [T.length_flat]
          omega
        rw [hl] at this
        simp only [T.flat, sub, if_true, Option.bind_some, Option.isSome_none, Bool.false_eq_true, if_false, Int.toNat_natCast]
        rw [← this]
        simp
      | false =>
        have := ih r (pre ++ [⟨((pre.length + 1 + r.size : Nat) : Int), ((pre.length + 1 : Nat) : Int), none, some (lr, rr)⟩])
          (l.flat (pre.length + 1 + r.size) ++ post)
        have hl : (pre ++ [(⟨((pre.length + 1 + r.size : Nat) : Int), ((pre.length + 1 : Nat) : Int), none, some (lr, rr)⟩ : Node α)]).length =
          pre.length + 1 := by simp
        rw [hl] at this
        simp only [T.flat, sub, if_false, Option.bind_some, Option.isSome_none, Bool.false_eq_true, Int.toNat_natCast]
        rw [← this]
        simp

theorem sub_flat (t : T α) (path : List Bool) (pre post : List (Node α)) {s : T α} {i : Nat} (h : sub t path pre.length = some (s, i)) :
    ∃ pre' post', pre ++ t.flat pre.length ++ post = pre' ++ s.flat i ++ post' ∧ pre'.length = i := by
  induction path generalizing t pre post with
  | nil =>
    cases t <;> (simp only [sub, Option.some.injEq, Prod.mk.injEq] at h; obtain ⟨rfl, rfl⟩ := h; exact ⟨pre, post, rfl, rfl⟩)
  | cons b path ih =>
    cases t with
    | leaf rows idx => simp [sub] at h
    | branch lr rr l r =>
      cases b with
      | true =>
        obtain ⟨p', q', h1, h2⟩ := ih l (pre ++ ⟨((pre.length + 1 + r.size : Nat) : Int), ((pre.length + 1 : Nat) : Int), none, some (lr, rr)⟩ ::
          r.flat (pre.length + 1)) post (by
            rw [sub, if_pos rfl] at h
            rw [← h]
            congr 1
            simp [T.length_flat]
            omega)
        refine ⟨p', q', ?_, h2⟩
        rw [← h1]
        have hl : (pre ++ (⟨((pre.length + 1 + r.size : Nat) : Int), ((pre.length + 1 : Nat) : Int), none, some (lr, rr)⟩ : Node α) ::
          r.flat (pre.length + 1)).length = pre.length + 1 + r.size := by
          simp [T.length_flat]
          omega
        rw [hl]
        simp [T.flat]
      | false =>
        obtain ⟨p', q', h1, h2⟩ := ih r (pre ++ [⟨((pre.length + 1 + r.size : Nat) : Int), ((pre.length + 1 : Nat) : Int), none, some (lr, rr)⟩])
          (l.flat (pre.length + 1 + r.size) ++ post) (by
            rw [sub, if_neg (by simp)] at h
            rw [← h]
            simp)
        refine ⟨p', q', ?_, h2⟩
        rw [← h1]
        simp [T.flat]

theorem sub_range (t : T α) (path : List Bool) (off : Nat) {s : T α} {i : Nat} (h : sub t path off = some (s, i)) :
    off ≤ i ∧ i < off + t.size := by
  have hs : ∀ u : T α, 0 < u.size := fun u => by cases u <;> simp only [T.size] <;> omega
  induction path generalizing t off with
  | nil =>
    cases t <;> (simp only [sub, Option.some.injEq, Prod.mk.injEq] at h; obtain ⟨rfl, rfl⟩ := h; exact ⟨le_rfl, by have := hs; simp [T.size]; try omega⟩)
  | cons b path ih =>
    cases t with
    | leaf rows idx => simp [sub] at h
    | branch lr rr l r =>
      cases b with
      | true =>
        rw [sub, if_pos rfl] at h
        have := ih l _ h
        simp only [T.size]
        omega
      | false =>
        rw [sub, if_neg (by simp)] at h
        have := ih r _ h
        simp only [T.size]
        omega

theorem sub_unique (t : T α) (off i : Nat) (h1 : off ≤ i) (h2 : i < off + t.size) : ∃! path, (sub t path off).map Prod.snd = some i := by
  induction t generalizing off with
  | leaf rows idx =>
    simp only [T.size] at h2
    obtain rfl : i = off := by omega
    refine ⟨[], rfl, fun path h => ?_⟩
    cases path with
    | nil => rfl
    | cons b path => simp [sub] at h
  | branch lr rr l r ihl ihr =>
    simp only [T.size] at h2
    have range : ∀ {u : T α} {path : List Bool} {o : Nat}, (sub u path o).map Prod.snd = some i → o ≤ i ∧ i < o + u.size := by
      intro u path o h
      obtain ⟨⟨s, j⟩, hj, rfl⟩ := Option.map_eq_some_iff.mp h
      exact sub_range u path o hj
    rcases Nat.lt_trichotomy i off with h | rfl | h
    · omega
    · refine ⟨[], rfl, fun path h => ?_⟩
      cases path with
      | nil => rfl
      | cons b path =>
        cases b with
        | true =>
          simp only [sub, if_true] at h
          have := range h
          omega
        | false =>
          simp only [sub, Bool.false_eq_true, if_false] at h
          have := range h
          omega
    · by_cases hr : i < off + 1 + r.size
      · obtain ⟨path, hp, hu⟩ := ihr (off + 1) (by omega) hr
        refine ⟨false :: path, by simpa [sub] using hp, fun q hq => ?_⟩
        match q with
        | [] => simp [sub] at hq; omega
        | true :: q =>
          simp only [sub, if_true] at hq
          have := range hq
          omega
        | false :: q =>
          simp only [sub, Bool.false_eq_true, if_false] at hq
          rw [hu q hq]
      · obtain ⟨path, hp, hu⟩ := ihl (off + 1 + r.size) (by omega) (by omega)
        refine ⟨true :: path, by simpa [sub] using hp, fun q hq => ?_⟩
        match q with
        | [] => simp [sub] at hq; omega
        | true :: q =>
          simp only [sub, if_true] at hq
          rw [hu q hq]
        | false :: q =>
          simp only [sub, Bool.false_eq_true, if_false] at hq
          have := range hq
          omega

theorem halved_sub {L n : Nat} {t : T α} (ht : t.Halved L n) {path : List Bool} {off : Nat} {s : T α} {i : Nat}
    (h : sub t path off = some (s, i)) :
    ∃ m, s.Halved L m ∧ n / 2 ^ path.length ≤ m ∧ m * 2 ^ path.length < n + 2 ^ path.length ∧
      (path ≠ [] → L * 2 ^ (path.length - 1) < n) := by
  induction path generalizing t n off with
  | nil =>
    cases t <;> (simp only [sub, Option.some.injEq, Prod.mk.injEq] at h; obtain ⟨rfl, rfl⟩ := h; exact ⟨n, ht, by simp, by simp, fun h => (h rfl).elim⟩)
  | cons b path ih =>
    have step : ∀ (n' : Nat) (u : T α) (o : Nat), n / 2 ≤ n' → 2 * n' ≤ n + 1 → L < n → u.Halved L n' → sub u path o = some (s, i) →
        ∃ m, s.Halved L m ∧ n / 2 ^ (b :: path).length ≤ m ∧ m * 2 ^ (b :: path).length < n + 2 ^ (b :: path).length ∧
          (b :: path ≠ [] → L * 2 ^ ((b :: path).length - 1) < n) := by
      intro n' u o h1 h2 h3 hu hs
      obtain ⟨m, hm, e1, e2, e3⟩ := ih hu hs
      refine ⟨m, hm, ?_, ?_, fun _ => ?_⟩
      · rw [List.length_cons, pow_succ', ← Nat.div_div_eq_div_mul]
        exact (Nat.div_le_div_right h1).trans e1
      · rw [List.length_cons, pow_succ, ← mul_assoc]
        omega
      · rw [List.length_cons, Nat.add_sub_cancel]
        cases path with
        | nil => simpa using h3
        | cons c q =>
          have := e3 (by simp)
          rw [List.length_cons, Nat.add_sub_cancel] at this
          rw [List.length_cons, pow_succ, ← mul_assoc]
          omega
    cases t with
    | leaf rows idx => simp [sub] at h
    | branch lr rr l r =>
      obtain ⟨h1, h2, h3⟩ := ht
      cases b with
      | true => exact step _ l _ le_rfl (by omega) h1 h2 (by simpa [sub] using h)
      | false => exact step _ r _ (by omega) (by omega) h1 h3 (by simpa [sub] using h)

theorem size_leaves (t : T α) : t.size + 1 = 2 * t.leaves.length := by
  induction t with
  | leaf => rfl
  | branch lr rr l r ihl ihr =>
    simp only [T.size, T.leaves, List.length_append]
    omega

/-- The number of rows is at most `leafSize` times and at least half of `leafSize + 1` times the number of leaves. -/
theorem halved_leaves {L n : Nat} {t : T α} (ht : t.Halved L n) :
    n ≤ L * t.leaves.length ∧ ((L + 1) / 2 ≤ n → (L + 1) / 2 * t.leaves.length ≤ n) := by
  induction t generalizing n with
  | leaf rows idx =>
    obtain ⟨-, h⟩ := ht
    simp only [T.leaves, List.length_singleton]
    omega
  | branch lr rr l r ihl ihr =>
    obtain ⟨h1, h2, h3⟩ := ht
    have a := ihl h2
    have b := ihr h3
    simp only [T.leaves, List.length_append, Nat.mul_add]
    have c := a.2 (by omega)
    have d := b.2 (by omega)
    omega

theorem leaf_of_flat {s : T α} {pre post : List (Node α)} {data : List (List α)} {idx : List Nat} {p : Node α}
    (h : (pre ++ s.flat pre.length ++ post)[pre.length]? = some p) (hp : p.leaf = some (data, idx)) : s = .leaf data idx := by
  rw [List.append_assoc, List.getElem?_append_right le_rfl, Nat.sub_self] at h
  cases s with
  | leaf rows idx' =>
    simp only [T.flat, List.cons_append, List.getElem?_cons_zero, Option.some.injEq] at h
    subst h
    simp only [Option.some.injEq, Prod.mk.injEq] at hp
    rw [hp.1, hp.2]
  | branch lr rr l r =>
    simp only [T.flat, List.cons_append, List.getElem?_cons_zero, Option.some.injEq] at h
    subst h
    cases hp

end KDBalance

open KDBalance

variable {α : Type} [CommRing α] [LinearOrder α] [IsStrictOrderedRing α]

/-- C141: the nodes form a tree: each node is reached from the root by exactly one sequence of turns, and no sequence leads outside. -/
theorem C141_tree (x : DMat α) (hx : x.WF) (leafSize : Nat) (nodes : List (Node α)) (hb : build x leafSize = .ok nodes) :
    (∀ i < nodes.length, ∃! path, kdFollow nodes path 0 = some i) ∧ ∀ path i, kdFollow nodes path 0 = some i → i < nodes.length := by
  obtain ⟨-, -, t, ht⟩ := kd_facts x hx leafSize nodes hb
  have e : ∀ path, kdFollow nodes path 0 = (sub t path 0).map Prod.snd := fun path => by
    have := follow_sub t path [] []
    rwa [List.length_nil, List.nil_append, List.append_nil, ← ht.flat] at this
  have hl : nodes.length = t.size := by rw [ht.flat, T.length_flat]
  constructor
  · intro i hi
    simp only [e]
    exact sub_unique t 0 i (Nat.zero_le i) (by omega)
  · intro path i h
    rw [e] at h
    obtain ⟨⟨s, j⟩, hj, rfl⟩ := Option.map_eq_some_iff.mp h
    have := sub_range t path 0 hj
    omega

/-- C141: a leaf after `d` turns holds the `2 ^ d`-th part of the rows, rounded up or down, and with more than one turn
`leaf_size * 2 ^ (d - 1)` is less than the number of rows. So a tree of `n` rows has a depth of at most `1 + log2 (n / leaf_size)`. -/
theorem C141_levels (x : DMat α) (hx : x.WF) (leafSize : Nat) (nodes : List (Node α)) (hb : build x leafSize = .ok nodes)
    (path : List Bool) (i : Nat) (hi : kdFollow nodes path 0 = some i) :
    (path.length ≤ 1 ∨ leafSize * 2 ^ (path.length - 1) < x.nrows) ∧
    ∀ p data idx, nodes[i]? = some p → p.leaf = some (data, idx) →
      x.nrows / 2 ^ path.length ≤ data.length ∧ data.length ≤ (x.nrows + 2 ^ path.length - 1) / 2 ^ path.length := by
  obtain ⟨-, h3, t, ht⟩ := kd_facts x hx leafSize nodes hb
  have e : kdFollow nodes path 0 = (sub t path 0).map Prod.snd := by
    have := follow_sub t path [] []
    rwa [List.length_nil, List.nil_append, List.append_nil, ← ht.flat] at this
  rw [e] at hi
  obtain ⟨⟨s, j⟩, hj, rfl⟩ := Option.map_eq_some_iff.mp hi
  obtain ⟨pre, post, hf, hpl⟩ := sub_flat t path [] [] hj
  rw [List.length_nil, List.nil_append, List.append_nil, ← ht.flat] at hf
  have leaf : ∀ p data idx, nodes[j]? = some p → p.leaf = some (data, idx) → s = .leaf data idx := by
    intro p data idx h1 h2
    subst hpl
    rw [hf] at h1
    exact leaf_of_flat h1 h2
  obtain ⟨lr, rr, l, r, rfl⟩ := ht.branch
  obtain ⟨hl, hr⟩ := ht.halves _ _ _ _ rfl
  cases path with
  | nil =>
    refine ⟨Or.inl (by simp), fun p data idx h1 h2 => ?_⟩
    have := leaf p data idx h1 h2
    simp only [sub, Option.some.injEq, Prod.mk.injEq] at hj
    rw [this] at hj
    cases hj.1
  | cons b path =>
    have key : ∃ m n', s.Halved leafSize m ∧ x.nrows / 2 ≤ n' ∧ 2 * n' ≤ x.nrows + 1 ∧ n' / 2 ^ path.length ≤ m ∧
        m * 2 ^ path.length < n' + 2 ^ path.length ∧ (path ≠ [] → leafSize * 2 ^ (path.length - 1) < n') := by
      cases b with
      | true =>
        obtain ⟨m, a1, a2, a3, a4⟩ := halved_sub hl (by simpa [sub] using hj)
        exact ⟨m, _, a1, le_rfl, by omega, a2, a3, a4⟩
      | false =>
        obtain ⟨m, a1, a2, a3, a4⟩ := halved_sub hr (by simpa [sub] using hj)
        exact ⟨m, _, a1, by omega, by omega, a2, a3, a4⟩
    obtain ⟨m, n', a1, a2, a3, a4, a5, a6⟩ := key
    constructor
    · cases path with
      | nil => exact Or.inl (by simp)
      | cons c q =>
        right
        have := a6 (by simp)
        simp only [List.length_cons, Nat.add_sub_cancel] at this ⊢
        rw [pow_succ, ← mul_assoc]
        omega
    · intro p data idx h1 h2
      rw [leaf p data idx h1 h2] at a1
      obtain ⟨rfl, -⟩ := a1
      constructor
      · rw [List.length_cons, pow_succ', ← Nat.div_div_eq_div_mul]
        exact (Nat.div_le_div_right a2).trans a4
      · rw [Nat.le_div_iff_mul_le (by positivity), List.length_cons, pow_succ, ← mul_assoc]
        omega

/-- C141: the number of nodes is odd, one less than twice the number of leaves; there are at least `n / leaf_size` leaves, and if there
are more rows than `leaf_size`, at most `n` divided by half of `leaf_size + 1`. -/
theorem C141_size (x : DMat α) (hx : x.WF) (leafSize : Nat) (nodes : List (Node α)) (hb : build x leafSize = .ok nodes) :
    nodes.length + 1 = 2 * (kdLeaves nodes).length ∧ x.nrows ≤ leafSize * (kdLeaves nodes).length ∧
    (leafSize < x.nrows → (leafSize + 1) / 2 * (kdLeaves nodes).length ≤ x.nrows) ∧
    (x.nrows ≤ leafSize → nodes.length = 3) := by
  obtain ⟨-, h3, t, ht⟩ := kd_facts x hx leafSize nodes hb
  have hl : kdLeaves nodes = t.leaves := by rw [kdLeaves, ht.flat, T.leaves_flat]
  have hn : nodes.length = t.size := by rw [ht.flat, T.length_flat]
  obtain ⟨lr, rr, l, r, rfl⟩ := ht.branch
  obtain ⟨h1, h2⟩ := ht.halves _ _ _ _ rfl
  have a := halved_leaves h1
  have b := halved_leaves h2
  rw [hl, hn]
  refine ⟨size_leaves _, ?_, fun h => ?_, fun h => ?_⟩
  · simp only [T.leaves, List.length_append, Nat.mul_add]
    omega
  · have c := a.2 (by omega)
    have d := b.2 (by omega)
    simp only [T.leaves, List.length_append, Nat.mul_add]
    omega
  · have one : ∀ {u : T α} {n : Nat}, u.Halved leafSize n → n ≤ leafSize → u.size = 1 := by
      intro u n hu hn
      cases u with
      | leaf => rfl
      | branch => exact absurd hu.1 (by omega)
    rw [T.size, one h1 (by omega), one h2 (by omega)]

/-- Beside C141: twelve rows with `leaf_size` 5 give seven nodes, the leaves have three rows after two turns. -/
example : ∃ nodes, build kdGood 5 = .ok nodes ∧ nodes.length = 7 ∧ kdFollow nodes [true, false] 0 = some 5 ∧
    (kdLeaves nodes).map (fun p => p.1.length) = [3, 3, 3, 3] := by
  have h : (match build kdGood 5 with
    | .ok nodes => decide (nodes.length = 7 ∧ kdFollow nodes [true, false] 0 = some 5 ∧ (kdLeaves nodes).map (fun p => p.1.length) = [3, 3, 3, 3])
    | _ => false) = true := by decide +kernel
  split at h
  · rename_i nodes hb
    exact ⟨nodes, hb, of_decide_eq_true h⟩
  · cases h

end OpenML
