import Verif.Lemmas.KDBox
import Verif.Lemmas.KSmallest
import Verif.Spec.Neighbours

set_option linter.unusedSectionVars false

namespace OpenML.KDTree

section Walk
variable {α : Type} {σ : Type}

/-- The common shape of the two traversals. -/
def walk (f : List (List α) → List Nat → σ → Res σ) (g : σ → Rect α → Res Bool) (tree : List (Node α)) :
    Nat → List (Node α) → σ → Res σ
  | 0, [], s => .ok s
  | 0, _ :: _, _ => .diverge
  | _ + 1, [], s => .ok s
  | fuel + 1, node :: stk, s =>
    match node.leaf with
    | some (data, indices) => do
      let s' ← f data indices s
      walk f g tree fuel stk s'
    | none =>
      match node.rects with
      | some (lr, rr) => do
        let bl ← g s lr
        let stk1 ← pushIf tree bl node.left stk
        let br ← g s rr
        let stk2 ← pushIf tree br node.right stk1
        walk f g tree fuel stk2 s
      | none => .ub

/-- The traversal as a recursion over the tree. -/
def visit (f : List (List α) → List Nat → σ → Res σ) (g : σ → Rect α → Res Bool) : T α → σ → Res σ
  | .leaf rows idx, s => f rows idx s
  | .branch lr rr l r, s => do
    let bl ← g s lr
    let br ← g s rr
    let s1 ← (if br then visit f g r s else .ok s)
    if bl then visit f g l s1 else .ok s1

/-- Root node of a tree stored at `off`. -/
def T.node : T α → Nat → Node α
  | .leaf rows idx, _ => ⟨0, 0, some (rows, idx), none⟩
  | .branch lr rr _ r, off => ⟨((off + 1 + r.size : Nat) : Int), ((off + 1 : Nat) : Int), none, some (lr, rr)⟩

/-- `t` is stored in the node vector from position `off` on. -/
def Stored (tree : List (Node α)) (off : Nat) (t : T α) : Prop :=
  ∃ pre post, tree = pre ++ (t.flat off ++ post) ∧ pre.length = off

theorem T.flat_head (t : T α) (off : Nat) : (t.flat off)[0]? = some (t.node off) := by
  cases t <;> rfl

theorem Stored.node {tree : List (Node α)} {off : Nat} {t : T α} (h : Stored tree off t) :
    tree[off]? = some (t.node off) := by
  obtain ⟨pre, post, rfl, rfl⟩ := h
  rw [List.getElem?_append_right (le_refl _), Nat.sub_self, List.getElem?_append_left, T.flat_head]
  rw [T.length_flat]
  cases t <;> simp [T.size] <;> omega

theorem Stored.right {tree : List (Node α)} {off : Nat} {lr rr : Rect α} {l r : T α}
    (h : Stored tree off (.branch lr rr l r)) : Stored tree (off + 1) r := by
  obtain ⟨pre, post, rfl, rfl⟩ := h
  exact ⟨pre ++ [(T.branch lr rr l r).node pre.length], l.flat (pre.length + 1 + r.size) ++ post,
    by simp [T.flat, T.node], by simp⟩

theorem Stored.left {tree : List (Node α)} {off : Nat} {lr rr : Rect α} {l r : T α}
    (h : Stored tree off (.branch lr rr l r)) : Stored tree (off + 1 + r.size) l := by
  obtain ⟨pre, post, rfl, rfl⟩ := h
  exact ⟨pre ++ ((T.branch lr rr l r).node pre.length :: r.flat (pre.length + 1)), post,
    by simp [T.flat, T.node], by simp [T.length_flat]; omega⟩

theorem pushIf_stored {tree : List (Node α)} {off : Nat} {t : T α} (h : Stored tree off t) (b : Bool)
    (stk : List (Node α)) : pushIf tree b (off : Int) stk = .ok (if b then t.node off :: stk else stk) := by
  unfold pushIf
  cases b
  · rfl
  · simp [h.node]

theorem walk_visit (f : List (List α) → List Nat → σ → Res σ) (g : σ → Rect α → Res Bool) (tree : List (Node α))
    (t : T α) : ∀ (off : Nat), Stored tree off t → ∀ (s s' : σ), visit f g t s = .ok s' →
      ∃ c, c ≤ t.size ∧ ∀ fuel stk, walk f g tree (c + fuel) (t.node off :: stk) s = walk f g tree fuel stk s' := by
  induction t with
  | leaf rows idx =>
    intro off hst s s' hv
    refine ⟨1, by simp [T.size], ?_⟩
    intro fuel stk
    rw [Nat.add_comm]
    simp only [visit] at hv
    simp [walk, T.node, hv]
  | branch lr rr l r ihl ihr =>
    intro off hst s s' hv
    simp only [visit, Res.bind_eq_ok] at hv
    obtain ⟨bl, hbl, br, hbr, s1, h1, h2⟩ := hv
    have hr : ∃ c, c ≤ r.size ∧ ∀ fuel stk, walk f g tree (c + fuel) (if br then r.node (off + 1) :: stk else stk) s =
        walk f g tree fuel stk s1 := by
      cases br
      · simp only [Bool.false_eq_true, if_false, Res.ok.injEq] at h1
        subst h1
        exact ⟨0, by omega, by simp⟩
      · simp only [if_true] at h1
        obtain ⟨c, hc, h⟩ := ihr _ hst.right _ _ h1
        exact ⟨c, hc, by simpa using h⟩
    have hl : ∃ c, c ≤ l.size ∧ ∀ fuel stk, walk f g tree (c + fuel)
        (if bl then l.node (off + 1 + r.size) :: stk else stk) s1 = walk f g tree fuel stk s' := by
      cases bl
      · simp only [Bool.false_eq_true, if_false, Res.ok.injEq] at h2
        subst h2
        exact ⟨0, by omega, by simp⟩
      · simp only [if_true] at h2
        obtain ⟨c, hc, h⟩ := ihl _ hst.left _ _ h2
        exact ⟨c, hc, by simpa using h⟩
    obtain ⟨cr, hcr, hwr⟩ := hr
    obtain ⟨cl, hcl, hwl⟩ := hl
    refine ⟨1 + cr + cl, by simp only [T.size]; omega, ?_⟩
    intro fuel stk
    have e : 1 + cr + cl + fuel = (cr + (cl + fuel)) + 1 := by omega
    rw [e]
    simp only [walk, T.node, hbl, Res.bind_ok, hbr]
    rw [pushIf_stored hst.left]
    simp only [Res.bind_ok]
    rw [pushIf_stored hst.right]
    simp only [Res.bind_ok]
    rw [hwr, hwl]

theorem walk_nil (f : List (List α) → List Nat → σ → Res σ) (g : σ → Rect α → Res Bool) (tree : List (Node α))
    (fuel : Nat) (s : σ) : walk f g tree fuel [] s = .ok s := by cases fuel <;> rfl

/-- Running the traversal from the root of a stored tree. -/
theorem walk_root (f : List (List α) → List Nat → σ → Res σ) (g : σ → Rect α → Res Bool) (t : T α) (s s' : σ)
    (h : visit f g t s = .ok s') : walk f g (t.flat 0) (t.flat 0).length [t.node 0] s = .ok s' := by
  obtain ⟨c, hc, hw⟩ := walk_visit f g (t.flat 0) t 0 ⟨[], [], by simp, rfl⟩ s s' h
  rw [T.length_flat]
  obtain ⟨d, hd⟩ : ∃ d, t.size = c + d := ⟨t.size - c, by omega⟩
  rw [hd, hw, walk_nil]

end Walk

variable {α : Type} [CommRing α] [LinearOrder α]

/-- Leaf step of the neighbour query. -/
def nnLeaf (nrm : List α → α) (Q : PQueue (WithTop α × Nat)) (x : List α) (k : Nat) (data : List (List α))
    (indices : List Nat) (h : Q.σ) : Res Q.σ := do
  let nn ← computeDistance nrm x data indices k
  .ok (pushAll Q k nn h)

/-- Pruning test of the neighbour query. -/
def nnTest (nrm : List α → α) (Q : PQueue (WithTop α × Nat)) (x : List α) (h : Q.σ) (r : Rect α) : Res Bool :=
  match Q.top h with
  | some e => checkIntersection nrm r x e.1
  | none => .ub

theorem queryLoop_eq (nrmP nrm : List α → α) (Q : PQueue (WithTop α × Nat)) (tree : List (Node α)) (x : List α) (k fuel : Nat)
    (stk : List (Node α)) (h : Q.σ) :
    queryLoop nrmP nrm Q tree x k fuel stk h = walk (nnLeaf nrm Q x k) (nnTest nrmP Q x) tree fuel stk h := by
  induction fuel generalizing stk h with
  | zero => cases stk <;> rfl
  | succ fuel ih =>
    cases stk with
    | nil => rfl
    | cons node stk =>
      cases hl : node.leaf with
      | some p =>
        obtain ⟨data, indices⟩ := p
        simp only [queryLoop, walk, hl, nnLeaf]
        cases computeDistance nrm x data indices k with
        | ok nn => simp [ih]
        | _ => rfl
      | none =>
        cases hr : node.rects with
        | none =>
          simp only [queryLoop, walk, hl, hr]
          cases Q.top h <;> rfl
        | some p =>
          obtain ⟨lr, rr⟩ := p
          cases ht : Q.top h with
          | none => simp [queryLoop, walk, hl, hr, ht, nnTest]
          | some e => simp [queryLoop, walk, hl, hr, ht, nnTest, ih]

/-- Leaf step of the radius query. -/
def radLeaf (nrm : List α → α) (x : List α) (radius : α) (data : List (List α)) (indices : List Nat)
    (acc : List (α × Nat)) : Res (List (α × Nat)) := do
  let dist ← leafDistances nrm data x
  let found ← selectWithin radius dist indices
  .ok (acc ++ found)

/-- Pruning test of the radius query. -/
def radTest (nrm : List α → α) (x : List α) (radius : α) (_ : List (α × Nat)) (r : Rect α) : Res Bool :=
  checkIntersection nrm r x radius

theorem radiusLoop_eq (nrmP nrm : List α → α) (tree : List (Node α)) (x : List α) (radius : α) (fuel : Nat)
    (stk : List (Node α)) (acc : List (α × Nat)) :
    radiusLoop nrmP nrm tree x radius fuel stk acc = walk (radLeaf nrm x radius) (radTest nrmP x radius) tree fuel stk acc := by
  induction fuel generalizing stk acc with
  | zero => cases stk <;> rfl
  | succ fuel ih =>
    cases stk with
    | nil => rfl
    | cons node stk =>
      cases hl : node.leaf with
      | some p =>
        obtain ⟨data, indices⟩ := p
        simp only [radiusLoop, walk, hl, radLeaf]
        cases leafDistances nrm data x with
        | ok nn =>
          simp only [Res.bind_ok]
          cases selectWithin radius nn indices with
          | ok s => simp [ih]
          | _ => rfl
        | _ => rfl
      | none =>
        cases hr : node.rects with
        | none => simp only [radiusLoop, walk, hl, hr]
        | some p =>
          obtain ⟨lr, rr⟩ := p
          simp [radiusLoop, walk, hl, hr, radTest, ih]

end OpenML.KDTree
