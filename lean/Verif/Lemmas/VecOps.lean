import Verif.Model.VecOps

namespace OpenML.VecOps

theorem stdSort_perm {α : Type} [LinearOrder α] (l : List α) : (stdSort l).Perm l := List.perm_insertionSort _ l
theorem stdSort_sorted {α : Type} [LinearOrder α] (l : List α) : (stdSort l).Pairwise (· ≤ ·) :=
  List.pairwise_insertionSort _ l
theorem mem_stdSort {α : Type} [LinearOrder α] {l : List α} {a : α} : a ∈ stdSort l ↔ a ∈ l := (stdSort_perm l).mem_iff

theorem findIn_iff {α : Type} [DecidableEq α] (a : α) (l : List α) : findIn a l = true ↔ a ∈ l := by
  induction l with
  | nil => simp [findIn]
  | cons b l ih => by_cases h : a = b <;> simp [findIn, h, ih]

theorem contains_iff {α : Type} [DecidableEq α] (v1 v2 : List α) : contains v1 v2 = true ↔ ∀ a ∈ v1, a ∈ v2 := by
  induction v1 with
  | nil => simp [contains]
  | cons a v1 ih =>
    by_cases h : a ∈ v2
    · simp [contains, (findIn_iff a v2).mpr h, h, ih]
    · have : findIn a v2 = false := by
        rw [← Bool.not_eq_true, findIn_iff]; exact h
      simp [contains, this, h]

theorem uniqueFrom_sorted {α : Type} [LinearOrder α] (a : α) (l : List α) (h : (a :: l).Pairwise (· ≤ ·)) :
    (uniqueFrom a l).Pairwise (· < ·) ∧ ∀ x, x ∈ uniqueFrom a l ↔ (x ∈ l ∧ a < x) := by
  induction l generalizing a with
  | nil => simp [uniqueFrom]
  | cons b l ih =>
    rw [List.pairwise_cons] at h
    obtain ⟨ha, hb⟩ := h
    by_cases hab : a = b
    · subst hab
      have := ih a hb
      simp only [uniqueFrom, if_true]
      refine ⟨this.1, fun x => ?_⟩
      rw [this.2, List.mem_cons]
      constructor
      · rintro ⟨h1, h2⟩; exact ⟨Or.inr h1, h2⟩
      · rintro ⟨rfl | h1, h2⟩
        · exact absurd h2 (lt_irrefl _)
        · exact ⟨h1, h2⟩
    · have hlt : a < b := lt_of_le_of_ne (ha b (by simp)) hab
      obtain ⟨h1, h2⟩ := ih b hb
      simp only [uniqueFrom, hab, if_false]
      refine ⟨?_, fun x => ?_⟩
      · rw [List.pairwise_cons]
        exact ⟨fun x hx => ((h2 x).mp hx).2, h1⟩
      · rw [List.mem_cons, h2, List.mem_cons]
        constructor
        · rintro (rfl | ⟨h3, h4⟩)
          · exact ⟨Or.inl rfl, hlt⟩
          · exact ⟨Or.inr h3, hlt.trans h4⟩
        · rintro ⟨rfl | h3, h4⟩
          · exact Or.inl rfl
          · have hle : b ≤ x := (List.pairwise_cons.mp hb).1 x h3
            rcases lt_or_eq_of_le hle with h5 | h5
            · exact Or.inr ⟨h3, h5⟩
            · exact Or.inl h5.symm

theorem stdUnique_sorted {α : Type} [LinearOrder α] (l : List α) (h : l.Pairwise (· ≤ ·)) :
    (stdUnique l).Pairwise (· < ·) ∧ ∀ x, x ∈ stdUnique l ↔ x ∈ l := by
  cases l with
  | nil => simp [stdUnique]
  | cons a l =>
    obtain ⟨h1, h2⟩ := uniqueFrom_sorted a l h
    simp only [stdUnique]
    refine ⟨List.pairwise_cons.mpr ⟨fun x hx => ((h2 x).mp hx).2, h1⟩, fun x => ?_⟩
    rw [List.mem_cons, h2, List.mem_cons]
    constructor
    · rintro (rfl | h3)
      · exact Or.inl rfl
      · exact Or.inr h3.1
    · rintro (rfl | h3)
      · exact Or.inl rfl
      · rcases lt_or_eq_of_le ((List.pairwise_cons.mp h).1 x h3) with h5 | h5
        · exact Or.inr ⟨h3, h5⟩
        · exact Or.inl h5.symm

theorem dropWhile_lt_sorted {α : Type} [LinearOrder α] (a : α) (bs : List α) (h : bs.Pairwise (· ≤ ·)) :
    (bs.dropWhile (fun b => decide (b < a))).Pairwise (· ≤ ·) ∧
      (∀ x, x ∈ bs.dropWhile (fun b => decide (b < a)) ↔ x ∈ bs ∧ a ≤ x) := by
  induction bs with
  | nil => simp
  | cons b bs ih =>
    rw [List.pairwise_cons] at h
    by_cases hb : b < a
    · rw [List.dropWhile_cons_of_pos (by simpa using hb)]
      refine ⟨(ih h.2).1, fun x => ?_⟩
      rw [(ih h.2).2, List.mem_cons]
      constructor
      · rintro ⟨h1, h2⟩; exact ⟨Or.inr h1, h2⟩
      · rintro ⟨rfl | h1, h2⟩
        · exact absurd hb (not_lt.mpr h2)
        · exact ⟨h1, h2⟩
    · rw [List.dropWhile_cons_of_neg (by simpa using hb)]
      refine ⟨List.pairwise_cons.mpr h, fun x => ?_⟩
      constructor
      · intro hx
        refine ⟨hx, ?_⟩
        rcases List.mem_cons.mp hx with rfl | hx
        · exact not_lt.mp hb
        · exact (not_lt.mp hb).trans (h.1 x hx)
      · exact fun hx => hx.1

theorem setDifference_spec {α : Type} [LinearOrder α] (as bs : List α) (ha : as.Pairwise (· < ·))
    (hb : bs.Pairwise (· ≤ ·)) :
    (setDifference as bs).Pairwise (· < ·) ∧ ∀ x, x ∈ setDifference as bs ↔ x ∈ as ∧ x ∉ bs := by
  induction as generalizing bs with
  | nil => simp [setDifference]
  | cons a as ih =>
    rw [List.pairwise_cons] at ha
    obtain ⟨hs, hm⟩ := dropWhile_lt_sorted a bs hb
    have hmem : ∀ x, (x = a ∨ x ∈ as) → (x ∈ bs ↔ x ∈ bs.dropWhile (fun b => decide (b < a))) := by
      intro x hx
      have : a ≤ x := by
        rcases hx with rfl | hx
        · exact le_refl _
        · exact (ha.1 x hx).le
      rw [hm]; tauto
    unfold setDifference
    cases hd : bs.dropWhile (fun b => decide (b < a)) with
    | nil =>
      simp only
      refine ⟨List.pairwise_cons.mpr ha, fun x => ?_⟩
      constructor
      · intro hx
        refine ⟨hx, ?_⟩
        rw [hmem x (List.mem_cons.mp hx), hd]; simp
      · exact fun hx => hx.1
    | cons b bs' =>
      rw [hd] at hs
      simp only
      by_cases hab : a < b
      · simp only [hab, if_true]
        obtain ⟨h1, h2⟩ := ih (b :: bs') ha.2 hs
        refine ⟨List.pairwise_cons.mpr ⟨fun x hx => ha.1 x ((h2 x).mp hx).1, h1⟩, fun x => ?_⟩
        rw [List.mem_cons, h2, show x ∈ a :: as ↔ x = a ∨ x ∈ as from List.mem_cons]
        constructor
        · rintro (rfl | ⟨h3, h4⟩)
          · refine ⟨Or.inl rfl, ?_⟩
            rw [hmem x (Or.inl rfl), hd, List.mem_cons]
            rintro (rfl | h5)
            · exact lt_irrefl _ hab
            · exact absurd ((List.pairwise_cons.mp hs).1 x h5) (not_le.mpr hab)
          · exact ⟨Or.inr h3, by rw [hmem x (Or.inr h3), hd]; exact h4⟩
        · rintro ⟨rfl | h3, h4⟩
          · exact Or.inl rfl
          · rw [hmem x (Or.inr h3), hd] at h4
            exact Or.inr ⟨h3, h4⟩
      · simp only [hab, if_false]
        have hba : b = a := by
          have hle : a ≤ b := ((hm b).mp (by rw [hd]; simp)).2
          exact le_antisymm (not_lt.mp hab) hle
        subst hba
        obtain ⟨h1, h2⟩ := ih bs' ha.2 (List.pairwise_cons.mp hs).2
        refine ⟨h1, fun x => ?_⟩
        rw [h2, List.mem_cons]
        constructor
        · rintro ⟨h3, h4⟩
          refine ⟨Or.inr h3, ?_⟩
          rw [hmem x (Or.inr h3), hd, List.mem_cons]
          rintro (rfl | h5)
          · exact lt_irrefl _ (ha.1 x h3)
          · exact h4 h5
        · rintro ⟨rfl | h3, h4⟩
          · rw [hmem x (Or.inl rfl), hd] at h4; simp at h4
          · rw [hmem x (Or.inr h3), hd] at h4
            exact ⟨h3, fun h5 => h4 (List.mem_cons_of_mem _ h5)⟩

theorem difference_spec {α : Type} [LinearOrder α] (v1 v2 : List α) (flag : Bool)
    (h : flag = true ∨ (v1.Pairwise (· ≤ ·) ∧ v2.Pairwise (· ≤ ·))) :
    (difference v1 v2 flag).Pairwise (· < ·) ∧ ∀ x, x ∈ difference v1 v2 flag ↔ x ∈ v1 ∧ x ∉ v2 := by
  have key : ∀ c1 c2 : List α, c1.Pairwise (· ≤ ·) → c2.Pairwise (· ≤ ·) → (∀ x, x ∈ c1 ↔ x ∈ v1) →
      (∀ x, x ∈ c2 ↔ x ∈ v2) → (setDifference (stdUnique c1) c2).Pairwise (· < ·) ∧
        ∀ x, x ∈ setDifference (stdUnique c1) c2 ↔ x ∈ v1 ∧ x ∉ v2 := by
    intro c1 c2 h1 h2 m1 m2
    obtain ⟨u1, u2⟩ := stdUnique_sorted c1 h1
    obtain ⟨d1, d2⟩ := setDifference_spec _ c2 u1 h2
    exact ⟨d1, fun x => by rw [d2, u2, m1, m2]⟩
  unfold difference
  cases flag with
  | true =>
    exact key _ _ (stdSort_sorted v1) (stdSort_sorted v2) (fun _ => mem_stdSort) (fun _ => mem_stdSort)
  | false =>
    rcases h with h | h
    · simp at h
    · exact key _ _ h.1 h.2 (fun _ => Iff.rfl) (fun _ => Iff.rfl)

theorem merge_perm {α : Type} (v1 v2 : List α) : (merge v1 v2).Perm (v1 ++ v2) := by
  induction v1 generalizing v2 with
  | nil => cases v2 <;> simp [merge]
  | cons a v1 ih =>
    cases v2 with
    | nil => simp [merge]
    | cons b v2 =>
      simp only [merge, List.cons_append]
      refine List.Perm.cons a ?_
      exact ((ih v2).cons b).trans List.perm_middle.symm

theorem merge_sublist {α : Type} (v1 v2 : List α) : v1.Sublist (merge v1 v2) ∧ v2.Sublist (merge v1 v2) := by
  induction v1 generalizing v2 with
  | nil => cases v2 <;> simp [merge]
  | cons a v1 ih =>
    cases v2 with
    | nil => simp [merge]
    | cons b v2 =>
      simp only [merge]
      exact ⟨((ih v2).1.cons b).cons_cons a, ((ih v2).2.cons_cons b).cons a⟩

theorem merge_alternates {α : Type} (v1 v2 : List α) (i : Nat) (h1 : i < v1.length) (h2 : i < v2.length) :
    (merge v1 v2)[2 * i]? = v1[i]? ∧ (merge v1 v2)[2 * i + 1]? = v2[i]? := by
  induction v1 generalizing v2 i with
  | nil => simp at h1
  | cons a v1 ih =>
    cases v2 with
    | nil => simp at h2
    | cons b v2 =>
      cases i with
      | zero => simp [merge]
      | succ i =>
        have := ih v2 i (by simpa using h1) (by simpa using h2)
        simp only [merge]
        rw [show 2 * (i + 1) = 2 * i + 1 + 1 by omega]
        simpa using this

theorem merge_rest {α : Type} (v1 v2 : List α) :
    (merge v1 v2).drop (2 * min v1.length v2.length) = v1.drop v2.length ++ v2.drop v1.length := by
  induction v1 generalizing v2 with
  | nil => cases v2 <;> simp [merge]
  | cons a v1 ih =>
    cases v2 with
    | nil => simp [merge]
    | cons b v2 =>
      simp only [merge, List.length_cons]
      rw [Nat.add_min_add_right, show 2 * (min v1.length v2.length + 1) = 2 * min v1.length v2.length + 1 + 1 by omega]
      simpa using ih v2

theorem isEqual_spec {α : Type} [DecidableEq α] (x y : List α) :
    isEqual x y = if y <+: x ∧ y ≠ x then .ub else .ok (decide (x = y)) := by
  induction x generalizing y with
  | nil => cases y <;> simp [isEqual]
  | cons a x ih =>
    cases y with
    | nil => simp [isEqual]
    | cons b y =>
      by_cases h : a = b
      · subst h
        simp only [isEqual, if_true, ih]
        simp [List.cons_prefix_cons]
      · simp [isEqual, h, List.cons_prefix_cons, Ne.symm h]

theorem flatten_spec {α : Type} (v : List (List α)) : flatten v = v.flatten := by
  have : ∀ (acc : List α), v.foldl (fun dest src => dest ++ src) acc = acc ++ v.flatten := by
    induction v with
    | nil => simp
    | cons r v ih => intro acc; simp [ih]
  simpa [flatten] using this []

/-- What `uniqueLoop` collects on a sorted list: strictly increasing values and the position of their first copy. -/
theorem uniqueLoop_spec {α : Type} [LinearOrder α] (l : List α) (i : Nat) (seen : List α)
    (hl : l.Pairwise (· ≤ ·)) (hs : ∀ a ∈ seen, ∀ b ∈ l, a ≤ b) :
    (uniqueLoop l i seen).1.Pairwise (· < ·) ∧
    (∀ x, x ∈ (uniqueLoop l i seen).1 ↔ x ∈ l ∧ x ∉ seen) ∧
    (uniqueLoop l i seen).2.length = (uniqueLoop l i seen).1.length ∧
    (∀ (k : Nat) (v : α) (p : Nat), (uniqueLoop l i seen).1[k]? = some v → (uniqueLoop l i seen).2[k]? = some p →
      i ≤ p ∧ l[p - i]? = some v ∧ ∀ q, q < p - i → l[q]? ≠ some v) := by
  induction l generalizing i seen with
  | nil => simp [uniqueLoop]
  | cons a l ih =>
    have hl' := List.pairwise_cons.mp hl
    by_cases ha : a ∈ seen
    · have hs' : ∀ x ∈ seen, ∀ b ∈ l, x ≤ b := fun x hx b hb => hs x hx b (by simp [hb])
      obtain ⟨h1, h2, h3, h4⟩ := ih (i + 1) seen hl'.2 hs'
      simp only [uniqueLoop, ha, if_true]
      refine ⟨h1, ?_, h3, ?_⟩
      · intro x
        rw [h2, List.mem_cons]
        constructor
        · rintro ⟨h5, h6⟩; exact ⟨Or.inr h5, h6⟩
        · rintro ⟨rfl | h5, h6⟩
          · exact absurd ha h6
          · exact ⟨h5, h6⟩
      · intro k v p hv hp
        obtain ⟨h5, h6, h7⟩ := h4 k v p hv hp
        have hvs : v ∉ seen := ((h2 v).mp (List.mem_of_getElem? hv)).2
        refine ⟨by omega, ?_, ?_⟩
        · rw [show p - i = (p - (i + 1)) + 1 by omega]; simpa using h6
        · intro q hq
          cases q with
          | zero => simp; rintro rfl; exact hvs ha
          | succ q => simpa using h7 q (by omega)
    · have hs' : ∀ x ∈ a :: seen, ∀ b ∈ l, x ≤ b := by
        intro x hx b hb
        rcases List.mem_cons.mp hx with rfl | hx
        · exact hl'.1 b hb
        · exact hs x hx b (by simp [hb])
      obtain ⟨h1, h2, h3, h4⟩ := ih (i + 1) (a :: seen) hl'.2 hs'
      simp only [uniqueLoop, ha, if_false]
      refine ⟨?_, ?_, by simpa using h3, ?_⟩
      · rw [List.pairwise_cons]
        refine ⟨fun x hx => ?_, h1⟩
        have := (h2 x).mp hx
        have hne : x ≠ a := fun h => this.2 (by simp [h])
        exact lt_of_le_of_ne (hl'.1 x this.1) (Ne.symm hne)
      · intro x
        rw [List.mem_cons, h2, List.mem_cons, List.mem_cons]
        constructor
        · rintro (rfl | ⟨h5, h6⟩)
          · exact ⟨Or.inl rfl, ha⟩
          · exact ⟨Or.inr h5, fun h => h6 (Or.inr h)⟩
        · rintro ⟨rfl | h5, h6⟩
          · exact Or.inl rfl
          · by_cases hxa : x = a
            · exact Or.inl hxa
            · exact Or.inr ⟨h5, fun h => h.elim hxa h6⟩
      · intro k v p hv hp
        cases k with
        | zero =>
          simp at hv hp
          subst hv; subst hp
          simp
        | succ k =>
          simp at hv hp
          obtain ⟨h5, h6, h7⟩ := h4 k v p hv hp
          have hva : v ≠ a := fun h => ((h2 v).mp (List.mem_of_getElem? hv)).2 (by simp [h])
          refine ⟨by omega, ?_, ?_⟩
          · rw [show p - i = (p - (i + 1)) + 1 by omega]; simpa using h6
          · intro q hq
            cases q with
            | zero => simpa using Ne.symm hva
            | succ q => simpa using h7 q (by omega)

theorem subU64_of_le {a b : Nat} (ha : a < 2 ^ 64) (h : b ≤ a) : subU64 a b = a - b := by
  unfold subU64
  omega

theorem subU64_of_lt {a b : Nat} (hb : b < 2 ^ 64) (h : a < b) : subU64 a b = a + 2 ^ 64 - b := by
  unfold subU64
  omega

theorem sliceRows_spec {α : Type} (x : List (List α)) (c0 c1 : Nat) (hc : c0 ≤ c1) (n i : Nat)
    (h : ∀ r, i ≤ r → r < i + n → ∃ row, x[r]? = some row ∧ c1 < row.length) :
    sliceRows x c0 c1 n i = .ok (((x.drop i).take n).map fun row => (row.drop c0).take (c1 - c0 + 1)) := by
  induction n generalizing i with
  | zero => simp [sliceRows]
  | succ n ih =>
    obtain ⟨row, hr, hlen⟩ := h i (by omega) (by omega)
    have hi : i < x.length := (List.getElem?_eq_some_iff.mp hr).1
    have hrow : x[i] = row := by rw [List.getElem?_eq_getElem hi] at hr; simpa using hr
    simp only [sliceRows]
    rw [readAt_of_lt hi, hrow]
    have hcr : copyRange row c0 c1 = .ok ((row.drop c0).take (c1 - c0 + 1)) := by
      unfold copyRange
      rw [if_pos ⟨by omega, by omega⟩, show c1 + 1 - c0 = c1 - c0 + 1 by omega]
    rw [Res.bind_ok, hcr, ih (i + 1) (fun r h1 h2 => h r (by omega) (by omega)), Res.bind_ok, Res.bind_ok]
    rw [List.drop_eq_getElem_cons hi, hrow, List.take_succ_cons, List.map_cons]

theorem sliceRows_ub {α : Type} (x : List (List α)) (c0 c1 n i : Nat) (hlt : x.length < i + n) (hn : 0 < n) :
    sliceRows x c0 c1 n i = .ub := by
  induction n generalizing i with
  | zero => omega
  | succ n ih =>
    simp only [sliceRows]
    rcases Nat.lt_or_ge i x.length with hi | hi
    · rw [readAt_of_lt hi, Res.bind_ok]
      unfold copyRange
      split
      · rw [Res.bind_ok, ih (i + 1) (by omega) (by omega), Res.bind_ub]
      · rfl
    · rw [readAt_of_ge hi]; rfl

theorem slice1D_not_ok {α : Type} (x : List α) (s e : Nat) (hx : x.length < 2 ^ 62) (hs : s < 2 ^ 64) (he : e < 2 ^ 64)
    (r : List α) : slice1D x s e ≠ .ok r := by
  unfold slice1D
  split
  · simp
  · rename_i hnt
    simp only
    split
    · rename_i hc
      exfalso
      unfold asSigned subU64 at *
      split at hc <;> split at hc <;> omega
    · simp

theorem argsortVec_nil_iff {α : Type} [LinearOrder α] (x : List α) (rev : Bool) :
    argsortVec x rev = if x = [] then .ok [] else .ub := by
  cases x with
  | nil => cases rev <;> rfl
  | cons a x =>
    simp only [List.cons_ne_nil, if_false, argsortVec]
    have key : ∀ (R : α × Nat → α × Nat → Prop) [DecidableRel R],
        (match ((a :: x).zipIdx.insertionSort R) with | [] => Res.ok ([] : List Nat) | _ :: _ => .ub) = .ub := by
      intro R _
      have hl := (List.perm_insertionSort R (a :: x).zipIdx).length_eq
      cases h : (a :: x).zipIdx.insertionSort R with
      | nil => rw [h] at hl; simp at hl
      | cons p l => rfl
    cases rev
    · exact key _
    · exact key _

end OpenML.VecOps
