import Verif.Lemmas.Data
import Verif.Model.SGD

/-!
# Two runs of an optimizer on related data
-/

namespace OpenML

/-- Two outcomes of the same kind, with related results. -/
inductive Res.Rel {β γ : Type} (R : β → γ → Prop) : Res β → Res γ → Prop
  | ok {b : β} {c : γ} : R b c → Res.Rel R (.ok b) (.ok c)
  | throw (e : Exn) : Res.Rel R (.throw e) (.throw e)
  | ub : Res.Rel R .ub .ub
  | diverge : Res.Rel R .diverge .diverge

theorem Res.Rel.bind {β γ β' γ' : Type} {R : β → γ → Prop} {S : β' → γ' → Prop} {x : Res β} {y : Res γ} (h : Res.Rel R x y)
    {f : β → Res β'} {g : γ → Res γ'} (hfg : ∀ b c, R b c → Res.Rel S (f b) (g c)) : Res.Rel S (x >>= f) (y >>= g) := by
  cases h with
  | ok h => exact hfg _ _ h
  | throw e => exact .throw e
  | ub => exact .ub
  | diverge => exact .diverge

theorem Res.Rel.mono {β γ : Type} {R S : β → γ → Prop} {x : Res β} {y : Res γ} (h : Res.Rel R x y) (hRS : ∀ b c, R b c → S b c) :
    Res.Rel S x y := by
  cases h with
  | ok h => exact .ok (hRS _ _ h)
  | throw e => exact .throw e
  | ub => exact .ub
  | diverge => exact .diverge

theorem Res.Rel.refl {β : Type} (x : Res β) : Res.Rel Eq x x := by
  cases x with
  | ok b => exact .ok rfl
  | throw e => exact .throw e
  | ub => exact .ub
  | diverge => exact .diverge

theorem Res.Rel.of_eq {β : Type} {x y : Res β} (h : x = y) : Res.Rel Eq x y := h ▸ Res.Rel.refl x

theorem Res.Rel.eq {β : Type} {x y : Res β} (h : Res.Rel Eq x y) : x = y := by
  cases h with
  | ok h => rw [h]
  | throw e => rfl
  | ub => rfl
  | diverge => rfl

namespace SGD

theorem forall₂_set {β γ : Type} {r : β → γ → Prop} {l : List β} {m : List γ} (h : List.Forall₂ r l m) (i : Nat) {b : β} {c : γ}
    (hbc : r b c) : List.Forall₂ r (l.set i b) (m.set i c) := by
  induction h generalizing i with
  | nil => exact .nil
  | cons h _ ih =>
    cases i with
    | zero => rename_i h'; exact .cons hbc h'
    | succ i => exact .cons h (ih i)

theorem forall₂_scatter {β γ : Type} {r : β → γ → Prop} (is : List Nat) {l : List β} {m : List γ} (h : List.Forall₂ r l m)
    {acc : List β} {acc' : List γ} (ha : List.Forall₂ r acc acc') : List.Forall₂ r (Data.scatter is l acc) (Data.scatter is m acc') := by
  induction is generalizing l m acc acc' with
  | nil => cases l <;> cases m <;> simpa [Data.scatter] using ha
  | cons i is ih =>
    cases h with
    | nil => simpa [Data.scatter] using ha
    | cons h hs => exact ih hs (forall₂_set ha i h)

theorem permuteRows_rel {β γ : Type} {r : β → γ → Prop} (is : List Nat) {l : List β} {m : List γ} (h : List.Forall₂ r l m) :
    Res.Rel (List.Forall₂ r) (Data.permuteRows is l) (Data.permuteRows is m) := by
  unfold Data.permuteRows
  rw [h.length_eq]
  split
  · exact .ok (forall₂_scatter is h h)
  · exact .ub

theorem forall₂_take {β γ : Type} {r : β → γ → Prop} {l : List β} {m : List γ} (h : List.Forall₂ r l m) (n : Nat) :
    List.Forall₂ r (l.take n) (m.take n) := List.forall₂_take n h

theorem forall₂_drop {β γ : Type} {r : β → γ → Prop} {l : List β} {m : List γ} (h : List.Forall₂ r l m) (n : Nat) :
    List.Forall₂ r (l.drop n) (m.drop n) := List.forall₂_drop n h

theorem middleRows_rel {β γ : Type} {r : β → γ → Prop} {l : List β} {m : List γ} (h : List.Forall₂ r l m) (start n : Nat) :
    Res.Rel (fun a b => List.Forall₂ r a b ∧ a.length = n) (middleRows l start n) (middleRows m start n) := by
  unfold middleRows
  rw [h.length_eq]
  split
  · rename_i hle
    refine .ok ⟨forall₂_take (forall₂_drop h start) n, ?_⟩
    rw [List.length_take, List.length_drop, h.length_eq]
    omega
  · exact .ub

section
variable {α W S T : Type} [Field α] [LinearOrder α]

/-- Related data sets: rows and labels correspond. -/
def DataRel (c : Nat) (r : List α → List α → Prop) (ry : α → α → Prop) (D E : DMat α × List α) : Prop :=
  D.1.ncols = c ∧ E.1.ncols = c ∧ List.Forall₂ r D.1.rows E.1.rows ∧ List.Forall₂ ry D.2 E.2

theorem shuffleXY_rel {c : Nat} {r : List α → List α → Prop} {ry : α → α → Prop} (shuffle : Option (Nat → List Nat)) (iter : Nat)
    {X X' : DMat α} {y y' : List α} (h : DataRel c r ry (X, y) (X', y')) :
    Res.Rel (DataRel c r ry) (shuffleXY shuffle iter X y) (shuffleXY shuffle iter X' y') := by
  obtain ⟨h1, h2, h3, h4⟩ := h
  cases shuffle with
  | none => exact .ok ⟨h1, h2, h3, h4⟩
  | some p =>
    refine (permuteRows_rel (p iter) h3).bind fun rows rows' hr => (permuteRows_rel (p iter) h4).bind fun z z' hz => .ok ⟨h1, h2, hr, hz⟩

variable {W' : Type} (loss₁ : LossFn α W) (loss₂ : LossFn α W') (weights₁ : S → W) (weights₂ : T → W') (step₁ : Step α S) (step₂ : Step α T)
  (R : S → T → Prop) (c : Nat) (r : List α → List α → Prop) (ry : α → α → Prop) (Q : α → α → Prop) (b k : Nat)
  (hstep : ∀ j < k, ∀ s t rows rows' z z' lr lr', R s t → List.Forall₂ r rows rows' → List.Forall₂ ry z z' → rows.length = b →
    z.length = b → Q lr lr' → Res.Rel R (step₁ s ⟨c, rows⟩ z lr j) (step₂ t ⟨c, rows'⟩ z' lr' j))
  (hloss : ∀ s t rows rows' z z', R s t → List.Forall₂ r rows rows' → List.Forall₂ ry z z' → rows.length = b → z.length = b →
    loss₁.evaluate ⟨c, rows⟩ z (weights₁ s) = loss₂.evaluate ⟨c, rows'⟩ z' (weights₂ t))

include hstep hloss in
theorem batchLoop_rel {X X' : DMat α} {y y' : List α} (hD : DataRel c r ry (X, y) (X', y')) (lr lr' : α) (hlr : Q lr lr') (n j : Nat)
    (hn : j + n ≤ k) (s : S) (t : T) (hs : R s t) :
    Res.Rel (fun a a' => R a.1 a'.1 ∧ a.2 = a'.2) (batchLoop loss₁ weights₁ step₁ b X y lr n j s)
      (batchLoop loss₂ weights₂ step₂ b X' y' lr' n j t) := by
  obtain ⟨h1, h2, h3, h4⟩ := hD
  dsimp only at h1 h2 h3 h4
  induction n generalizing j s t with
  | zero => exact .ok ⟨hs, rfl⟩
  | succ n ih =>
    refine (middleRows_rel h3 _ _).bind fun rows rows' hr => (middleRows_rel h4 _ _).bind fun z z' hz => ?_
    rw [h1, h2]
    refine (hstep j (by omega) s t rows rows' z z' lr lr' hs hr.1 hz.1 hr.2 hz.2 hlr).bind fun s' t' hs' => ?_
    rw [hloss s' t' rows rows' z z' hs' hr.1 hz.1 hr.2 hz.2]
    refine (Res.Rel.refl _).bind fun l l' hl => ?_
    subst hl
    refine (ih (j + 1) (by omega) s' t' hs').bind fun a a' ha => .ok ⟨ha.1, ?_⟩
    dsimp only
    rw [ha.2]

include hstep hloss in
theorem epochLoop_rel (p₁ p₂ : Params α) (hb1 : p₁.batchSize = b) (hb2 : p₂.batchSize = b) (hnc : p₁.noChange = p₂.noChange)
    (htol : p₁.tol = p₂.tol) (hsh : p₁.shuffle = p₂.shuffle) (hdec : ∀ i, Res.Rel Q (p₁.decay i) (p₂.decay i)) (n iter : Nat)
    {X X' : DMat α} {y y' : List α} (hD : DataRel c r ry (X, y) (X', y')) (s : S) (t : T) (hs : R s t) (best : Option α) (count : Nat) :
    Res.Rel (fun w w' => ∃ s t, R s t ∧ w = weights₁ s ∧ w' = weights₂ t) (epochLoop loss₁ weights₁ step₁ p₁ k n iter X y s best count)
      (epochLoop loss₂ weights₂ step₂ p₂ k n iter X' y' t best count) := by
  induction n generalizing iter X X' y y' s t best count with
  | zero => exact .throw _
  | succ n ih =>
    unfold epochLoop
    have he : Res.Rel (fun a a' => DataRel c r ry a.1 a'.1 ∧ R a.2.1 a'.2.1 ∧ a.2.2 = a'.2.2)
        (epoch loss₁ weights₁ step₁ p₁ k iter X y s) (epoch loss₂ weights₂ step₂ p₂ k iter X' y' t) := by
      unfold epoch
      rw [← hsh, hb1, hb2]
      refine (shuffleXY_rel p₁.shuffle iter hD).bind fun d d' hd => (hdec iter).bind fun lr lr' hlr => ?_
      refine (batchLoop_rel loss₁ loss₂ weights₁ weights₂ step₁ step₂ R c r ry Q b k hstep hloss hd lr lr' hlr k 0 (by omega) s t hs).bind
        fun a a' ha => .ok ⟨hd, ha.1, ?_⟩
      dsimp only
      rw [ha.2]
    refine he.bind fun a a' ha => ?_
    obtain ⟨hd, hst, hsum⟩ := ha
    dsimp only
    have hw : worse p₁ best a.2.2 = worse p₂ best a'.2.2 := by
      unfold worse
      rw [htol, hb1, hb2, hsum]
    rw [hw, hsum, hnc]
    generalize (if worse p₂ best a'.2.2 = true then count + 1 else 0) = cnt
    split
    · exact .ok ⟨_, _, hst, rfl, rfl⟩
    · exact ih (iter + 1) hd a.2.1 a'.2.1 hst _ _

include hstep hloss in
/-- Two calls of `optimize` on related data from related states, with parameters that only differ in the learning rates. -/
theorem optimize_rel (p₁ p₂ : Params α) (hb1 : p₁.batchSize = b) (hb2 : p₂.batchSize = b) (hnc : p₁.noChange = p₂.noChange)
    (hmax : p₁.maxIter = p₂.maxIter)
    (htol : p₁.tol = p₂.tol) (hsh : p₁.shuffle = p₂.shuffle) (hdec : ∀ i, Res.Rel Q (p₁.decay i) (p₂.decay i))
    {X X' : DMat α} {y y' : List α} (hD : DataRel c r ry (X, y) (X', y')) (hk : X.nrows / b = k) (s : S) (t : T) (hs : R s t) :
    Res.Rel (fun w w' => ∃ s t, R s t ∧ w = weights₁ s ∧ w' = weights₂ t) (optimize loss₁ weights₁ step₁ p₁ X y s)
      (optimize loss₂ weights₂ step₂ p₂ X' y' t) := by
  have hk' : X'.nrows / b = k := by
    rw [← hk]
    unfold DMat.nrows
    rw [show X'.rows.length = X.rows.length from hD.2.2.1.length_eq.symm]
  unfold optimize
  rw [hb1, hb2, hmax, hk, hk']
  split
  · exact .ub
  · exact epochLoop_rel loss₁ loss₂ weights₁ weights₂ step₁ step₂ R c r ry Q b k hstep hloss p₁ p₂ hb1 hb2 hnc htol hsh hdec _ _ hD s t hs _ _

end

end SGD

end OpenML
