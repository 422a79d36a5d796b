import Verif.Model.HashTree
import Verif.Spec.Counting
import Mathlib.Data.List.Basic

namespace OpenML.HashTree
open Spec

/-! ## Association lists -/

section Assoc
variable {κ ν : Type} [DecidableEq κ]

theorem find_eq_none {k : κ} {m : List (κ × ν)} : find k m = none ↔ k ∉ m.map Prod.fst := by
  induction m with
  | nil => simp [find]
  | cons p r ih =>
    unfold find
    by_cases h : p.1 = k
    · simp [h]
    · rw [if_neg h, ih]; simp [Ne.symm h]

theorem find_some_mem {k : κ} {v : ν} {m : List (κ × ν)} (h : find k m = some v) : (k, v) ∈ m := by
  induction m with
  | nil => simp [find] at h
  | cons p r ih =>
    unfold find at h
    by_cases hp : p.1 = k
    · rw [if_pos hp] at h; cases h; subst hp; simp
    · rw [if_neg hp] at h; simp [ih h]

theorem find_of_mem {k : κ} {v : ν} {m : List (κ × ν)} (hn : (m.map Prod.fst).Nodup) (h : (k, v) ∈ m) :
    find k m = some v := by
  induction m with
  | nil => simp at h
  | cons p r ih =>
    simp only [List.map_cons, List.nodup_cons] at hn
    unfold find
    rcases List.mem_cons.mp h with rfl | h
    · simp
    · rw [if_neg, ih hn.2 h]
      rintro rfl
      exact hn.1 (List.mem_map.mpr ⟨_, h, rfl⟩)

theorem mem_iff_find {k : κ} {v : ν} {m : List (κ × ν)} (hn : (m.map Prod.fst).Nodup) :
    (k, v) ∈ m ↔ find k m = some v := ⟨find_of_mem hn, find_some_mem⟩

theorem find_append (k : κ) (a b : List (κ × ν)) : find k (a ++ b) = (find k a).or (find k b) := by
  induction a with
  | nil => simp [find]
  | cons p r ih =>
    simp only [List.cons_append, find]
    by_cases h : p.1 = k
    · simp [h]
    · simp [h, ih]

theorem keys_insertNew (lt : κ → κ → Bool) (k : κ) (v : ν) (m : List (κ × ν)) :
    ((insertNew lt k v m).map Prod.fst).Perm (k :: m.map Prod.fst) := by
  induction m with
  | nil => simp [insertNew]
  | cons p r ih =>
    unfold insertNew
    split
    · simp
    · simp only [List.map_cons]
      exact (ih.cons _).trans (List.Perm.swap _ _ _)

theorem keys_replace (k : κ) (v : ν) (m : List (κ × ν)) : (replace k v m).map Prod.fst = m.map Prod.fst := by
  induction m with
  | nil => rfl
  | cons p r ih =>
    unfold replace
    split
    · next h => simp [h]
    · simp [ih]

theorem find_insertNew (lt : κ → κ → Bool) (k k' : κ) (v : ν) (m : List (κ × ν)) (h : find k m = none) :
    find k' (insertNew lt k v m) = if k' = k then some v else find k' m := by
  induction m with
  | nil => by_cases h : k = k' <;> simp [insertNew, find, h, eq_comm]
  | cons p r ih =>
    unfold find at h
    have hp : p.1 ≠ k := by intro hp; simp [hp] at h
    rw [if_neg hp] at h
    have ih := ih h
    unfold insertNew
    by_cases hl : lt k p.1 = true
    · rw [if_pos hl]
      simp only [find]
      by_cases hk : k = k'
      · simp [hk]
      · simp [hk, Ne.symm hk]
    · rw [if_neg hl]
      simp only [find]
      by_cases hpk : p.1 = k'
      · have : k' ≠ k := fun e => hp (hpk.trans e)
        simp [hpk, this]
      · rw [if_neg hpk, ih, if_neg hpk]

theorem find_replace (k k' : κ) (v : ν) (m : List (κ × ν)) (h : find k m ≠ none) :
    find k' (replace k v m) = if k' = k then some v else find k' m := by
  induction m with
  | nil => simp [find] at h
  | cons p r ih =>
    unfold replace
    unfold find at h
    by_cases hp : p.1 = k
    · rw [if_pos hp]
      simp only [find]
      by_cases hk : k = k'
      · simp [hk]
      · rw [if_neg hk, if_neg (Ne.symm hk), if_neg (by rw [hp]; exact hk)]
    · rw [if_neg hp] at h ⊢
      simp only [find]
      by_cases hpk : p.1 = k'
      · have : k' ≠ k := fun e => hp (hpk.trans e)
        simp [hpk, this]
      · rw [if_neg hpk, ih h, if_neg hpk]

theorem keys_put (lt : κ → κ → Bool) (k : κ) (v : ν) (m : List (κ × ν)) (hn : (m.map Prod.fst).Nodup) :
    ((put lt k v m).map Prod.fst).Nodup := by
  unfold put
  cases h : find k m with
  | some w => simpa [keys_replace] using hn
  | none =>
    simp only
    rw [(keys_insertNew lt k v m).nodup_iff, List.nodup_cons]
    exact ⟨find_eq_none.mp h, hn⟩

theorem find_put (lt : κ → κ → Bool) (k k' : κ) (v : ν) (m : List (κ × ν)) :
    find k' (put lt k v m) = if k' = k then some v else find k' m := by
  unfold put
  cases h : find k m with
  | some w => exact find_replace k k' v m (by simp [h])
  | none => exact find_insertNew lt k k' v m h

theorem mem_put {lt : κ → κ → Bool} {k : κ} {v : ν} {m : List (κ × ν)} (hn : (m.map Prod.fst).Nodup) {p : κ × ν}
    (hp : p ∈ put lt k v m) : p = (k, v) ∨ p ∈ m := by
  have h1 := find_of_mem (keys_put lt k v m hn) (show (p.1, p.2) ∈ put lt k v m from hp)
  rw [find_put] at h1
  by_cases h : p.1 = k
  · rw [if_pos h] at h1
    left
    cases p; simp_all
  · rw [if_neg h] at h1
    exact Or.inr (find_some_mem h1)

end Assoc

theorem find_addCount (b : Bucket) (s s' : List Nat) (n : Nat) :
    find s' (addCount b s n) = if s' = s then some ((find s b).getD 0 + n) else find s' b := by
  unfold addCount
  cases h : find s b with
  | some c => rw [find_replace s s' _ b (by simp [h])]; simp
  | none => rw [find_insertNew _ s s' _ b h]; simp

theorem keys_addCount (b : Bucket) (s : List Nat) (n : Nat) (hn : (b.map Prod.fst).Nodup) :
    ((addCount b s n).map Prod.fst).Nodup := by
  unfold addCount
  cases h : find s b with
  | some c => simpa [keys_replace] using hn
  | none =>
    simp only
    rw [(keys_insertNew lexLt s n b).nodup_iff, List.nodup_cons]
    exact ⟨find_eq_none.mp h, hn⟩

theorem mem_keys_addCount {b : Bucket} {s : List Nat} {n : Nat} {k : List Nat}
    (hk : k ∈ (addCount b s n).map Prod.fst) : k = s ∨ k ∈ b.map Prod.fst := by
  by_contra hc
  push Not at hc
  have h1 : find k b = none := find_eq_none.mpr hc.2
  have h2 := find_addCount b s k n
  rw [if_neg hc.1, h1, find_eq_none] at h2
  exact h2 hk

/-! ## Invariant -/

theorem entriesPair_eq (p : Nat × Node) : entriesPair p = p.2.entries := by cases p; simp [entriesPair]

theorem entries_leaf (b : Bucket) (ch : List (Nat × Node)) : (Node.mk true b ch).entries = b := by
  simp [Node.entries]

theorem entries_inner (b : Bucket) (ch : List (Nat × Node)) : (Node.mk false b ch).entries = entriesList ch := by
  simp [Node.entries]

theorem entriesList_nil : entriesList [] = [] := by simp [entriesList]

theorem entriesList_cons (p : Nat × Node) (r : List (Nat × Node)) :
    entriesList (p :: r) = p.2.entries ++ entriesList r := by
  simp [entriesList, entriesPair_eq]

/-- Itemset `s` belongs under the node reached with the hash path `pre`. -/
def Under (L mc : Nat) (pre : List Nat) (s : List Nat) : Prop :=
  s.length = L ∧ (s.take pre.length).map (· % mc) = pre

/-- Shape invariant of a node at hash path `pre` with `n` levels left below it. -/
def WF (L mc : Nat) : Nat → List Nat → Node → Prop
  | 0, pre, .mk isLeaf b ch =>
    isLeaf = true ∧ ch = [] ∧ (b.map Prod.fst).Nodup ∧ ∀ e ∈ b, Under L mc pre e.1
  | n + 1, pre, .mk isLeaf b ch =>
    if isLeaf = true then ch = [] ∧ (b.map Prod.fst).Nodup ∧ ∀ e ∈ b, Under L mc pre e.1
    else b = [] ∧ (ch.map Prod.fst).Nodup ∧ ∀ p ∈ ch, WF L mc n (pre ++ [p.1]) p.2

theorem WF_leaf {L mc n : Nat} {pre : List Nat} {b : Bucket} {ch : List (Nat × Node)} :
    WF L mc n pre (.mk true b ch) ↔ ch = [] ∧ (b.map Prod.fst).Nodup ∧ ∀ e ∈ b, Under L mc pre e.1 := by
  cases n <;> simp [WF]

theorem WF_empty {L mc n : Nat} {pre : List Nat} : WF L mc n pre Node.empty := by
  rw [Node.empty, WF_leaf]; simp

theorem under_snoc {L mc : Nat} {pre : List Nat} {s : List Nat} {k : Nat} :
    Under L mc (pre ++ [k]) s ↔ Under L mc pre s ∧ ∃ v, s[pre.length]? = some v ∧ v % mc = k := by
  unfold Under
  simp only [List.length_append, List.length_cons, List.length_nil, Nat.zero_add, List.take_add_one, List.map_append]
  constructor
  · rintro ⟨h1, h2⟩
    have hlen := congrArg List.length h2
    simp only [List.length_append, List.length_map, List.length_take, List.length_cons, List.length_nil] at hlen
    cases hs : s[pre.length]? with
    | none =>
      rw [hs] at hlen
      simp at hlen
      omega
    | some v =>
      rw [hs] at h2
      have hl : ((s.take pre.length).map (· % mc)).length = pre.length := by
        have := (List.getElem?_eq_some_iff.mp hs).1
        simp; omega
      obtain ⟨h3, h4⟩ := List.append_inj h2 hl
      simp at h4
      exact ⟨⟨h1, h3⟩, v, rfl, h4⟩
  · rintro ⟨⟨h1, h2⟩, v, hv, hk⟩
    exact ⟨h1, by rw [h2, hv]; simp [hk]⟩

theorem hashAt_of_under {L mc : Nat} {pre s : List Nat} (hmc : 0 < mc) (h : Under L mc pre s) (hlt : pre.length < L) :
    ∃ k, hashAt mc s pre.length = .ok k ∧ Under L mc (pre ++ [k]) s := by
  have hlt' : pre.length < s.length := by rw [h.1]; exact hlt
  refine ⟨s[pre.length] % mc, ?_, ?_⟩
  · simp only [hashAt, readAt_of_lt hlt', Res.bind_ok]
    rw [if_neg (by omega)]
  · rw [under_snoc]
    exact ⟨h, _, List.getElem?_eq_getElem hlt', rfl⟩

theorem entries_wf {L mc : Nat} : ∀ (n : Nat) (pre : List Nat) (node : Node), WF L mc n pre node →
    (node.entries.map Prod.fst).Nodup ∧ ∀ e ∈ node.entries, Under L mc pre e.1 := by
  intro n
  induction n with
  | zero =>
    rintro pre ⟨lf, b, ch⟩ h
    obtain ⟨rfl, _, h1, h2⟩ := h
    rw [entries_leaf]; exact ⟨h1, h2⟩
  | succ n ih =>
    rintro pre ⟨lf, b, ch⟩ h
    cases lf with
    | true => rw [WF_leaf] at h; rw [entries_leaf]; exact h.2
    | false =>
      rw [entries_inner]
      simp only [WF, Bool.false_eq_true, if_false] at h
      obtain ⟨rfl, hn, hch⟩ := h
      induction ch with
      | nil => simp [entriesList_nil]
      | cons p r ihr =>
        simp only [List.map_cons, List.nodup_cons] at hn
        obtain ⟨h1, h2⟩ := ih _ _ (hch p (by simp))
        obtain ⟨h3, h4⟩ := ihr hn.2 (fun q hq => hch q (by simp [hq]))
        have hrest : ∀ e ∈ entriesList r, ∃ q ∈ r, Under L mc (pre ++ [q.1]) e.1 := by
          clear h3 h4 ihr hn
          have hch' : ∀ q ∈ r, WF L mc n (pre ++ [q.1]) q.2 := fun q hq => hch q (by simp [hq])
          clear hch
          induction r with
          | nil => simp [entriesList_nil]
          | cons q r ih2 =>
            intro e he
            rw [entriesList_cons, List.mem_append] at he
            rcases he with he | he
            · exact ⟨q, by simp, (ih _ _ (hch' q (by simp))).2 e he⟩
            · obtain ⟨q', hq', hu⟩ := ih2 (fun x hx => hch' x (by simp [hx])) e he
              exact ⟨q', by simp [hq'], hu⟩
        rw [entriesList_cons]
        constructor
        · rw [List.map_append, List.nodup_append]
          refine ⟨h1, h3, ?_⟩
          intro a ha b hb hab
          subst hab
          obtain ⟨e, he, rfl⟩ := List.mem_map.mp ha
          obtain ⟨e', he', hee⟩ := List.mem_map.mp hb
          obtain ⟨q, hq, hu⟩ := hrest e' he'
          rw [hee] at hu
          have hu' := h2 e he
          rw [under_snoc] at hu hu'
          obtain ⟨_, v, hv, hk⟩ := hu
          obtain ⟨_, v', hv', hk'⟩ := hu'
          rw [hv] at hv'
          cases hv'
          exact hn.1 (List.mem_map.mpr ⟨q, hq, by rw [← hk, hk']⟩)
        · intro e he
          rcases List.mem_append.mp he with he | he
          · exact (under_snoc.mp (h2 e he)).1
          · exact h4 e he

/-- Lookup below an inner node goes to the child selected by the hash. -/
theorem find_entriesList {L mc n : Nat} {pre : List Nat} (ch : List (Nat × Node)) (hn : (ch.map Prod.fst).Nodup)
    (hch : ∀ p ∈ ch, WF L mc n (pre ++ [p.1]) p.2) {s : List Nat} {k : Nat} (hs : Under L mc (pre ++ [k]) s) :
    find s (entriesList ch) = (find k ch).bind fun c => find s c.entries := by
  induction ch with
  | nil => simp [entriesList_nil, find]
  | cons p r ih =>
    simp only [List.map_cons, List.nodup_cons] at hn
    have ih := ih hn.2 fun q hq => hch q (by simp [hq])
    rw [entriesList_cons, find_append, ih]
    simp only [find]
    by_cases hp : p.1 = k
    · rw [if_pos hp]
      have : find k r = none := find_eq_none.mpr (hp ▸ hn.1)
      rw [this]
      simp
    · rw [if_neg hp]
      have : find s p.2.entries = none := by
        rw [find_eq_none]
        intro hmem
        obtain ⟨e, he, rfl⟩ := List.mem_map.mp hmem
        have hu := (entries_wf n _ _ (hch p (by simp))).2 e he
        rw [under_snoc] at hu hs
        obtain ⟨_, v, hv, hk⟩ := hu
        obtain ⟨_, v', hv', hk'⟩ := hs
        rw [hv] at hv'
        cases hv'
        exact hp (by rw [← hk, hk'])
      rw [this]
      simp

theorem find_entries_of_not_under {L mc n : Nat} {pre : List Nat} {node : Node} (h : WF L mc n pre node) {s : List Nat}
    (hs : ¬ Under L mc pre s) : find s node.entries = none := by
  rw [find_eq_none]
  intro hmem
  obtain ⟨e, he, rfl⟩ := List.mem_map.mp hmem
  exact hs ((entries_wf n _ _ h).2 e he)

/-! ## Children updates -/

/-- What inserting below a node must achieve. -/
def InsertSpec (L mc n : Nat) (pre : List Nat) (node : Node) (s : List Nat) (count : Nat) (r : Res Node) : Prop :=
  ∃ node', r = .ok node' ∧ WF L mc n pre node' ∧
    ∀ s', find s' node'.entries = if s' = s then some ((find s node.entries).getD 0 + count) else find s' node.entries

theorem withChild_spec {L mc n : Nat} {pre : List Nat} (f : Node → Res Node) (ch : List (Nat × Node))
    (hn : (ch.map Prod.fst).Nodup) (hch : ∀ p ∈ ch, WF L mc n (pre ++ [p.1]) p.2) {s : List Nat} {k count : Nat}
    (hs : Under L mc (pre ++ [k]) s)
    (hf : ∀ c, WF L mc n (pre ++ [k]) c → InsertSpec L mc n (pre ++ [k]) c s count (f c)) :
    ∃ ch', withChild f k ch = .ok ch' ∧ (ch'.map Prod.fst).Nodup ∧ (∀ p ∈ ch', WF L mc n (pre ++ [p.1]) p.2) ∧
      ∀ s', Under L mc pre s' → find s' (entriesList ch') =
        if s' = s then some ((find s (entriesList ch)).getD 0 + count) else find s' (entriesList ch) := by
  have hwf : WF L mc n (pre ++ [k]) ((find k ch).getD Node.empty) := by
    cases h : find k ch with
    | none => exact WF_empty
    | some c => exact hch _ (find_some_mem h)
  obtain ⟨c', hc', hwf', hfind⟩ := hf _ hwf
  have hn' := keys_put (fun a b : Nat => decide (a < b)) k c' ch hn
  have hch' : ∀ p ∈ put (fun a b : Nat => decide (a < b)) k c' ch, WF L mc n (pre ++ [p.1]) p.2 := by
    intro p hp
    rcases mem_put hn hp with rfl | hp
    · exact hwf'
    · exact hch p hp
  refine ⟨_, by simp only [withChild, hc', Res.bind_ok], hn', hch', ?_⟩
  have hold : find s (entriesList ch) = find s ((find k ch).getD Node.empty).entries := by
    rw [find_entriesList ch hn hch hs]
    cases find k ch with
    | none => simp [Node.empty, entries_leaf, find]
    | some c => simp
  intro s' hs'
  by_cases hlen : pre.length < L
  · -- the key of `s'`
    have : ∃ k', Under L mc (pre ++ [k']) s' := by
      have hlt' : pre.length < s'.length := by rw [hs'.1]; exact hlen
      exact ⟨s'[pre.length] % mc, under_snoc.mpr ⟨hs', _, List.getElem?_eq_getElem hlt', rfl⟩⟩
    obtain ⟨k', hk'⟩ := this
    rw [find_entriesList _ hn' hch' hk', find_put]
    by_cases hkk : k' = k
    · subst hkk
      rw [if_pos rfl]
      simp only [Option.bind_some]
      rw [hfind s', hold]
      by_cases hss : s' = s
      · simp [hss]
      · rw [if_neg hss, if_neg hss, find_entriesList ch hn hch hk']
        cases find k' ch with
        | none => simp [Node.empty, entries_leaf, find]
        | some c => simp
    · rw [if_neg hkk]
      have hss : s' ≠ s := by
        rintro rfl
        rw [under_snoc] at hk' hs
        obtain ⟨_, v, hv, h1⟩ := hk'
        obtain ⟨_, v', hv', h2⟩ := hs
        rw [hv] at hv'
        cases hv'
        exact hkk (by rw [← h1, h2])
      rw [if_neg hss, find_entriesList ch hn hch hk']
  · exfalso
    obtain ⟨h1, v, hv, _⟩ := under_snoc.mp hs
    have := (List.getElem?_eq_some_iff.mp hv).1
    rw [h1.1] at this
    omega

theorem redistribute_spec {L mc n : Nat} {pre : List Nat} (hmc : 0 < mc) (hlt : pre.length < L)
    (f : Node → List Nat → Nat → Res Node)
    (hf : ∀ k c s count, Under L mc (pre ++ [k]) s → WF L mc n (pre ++ [k]) c →
      InsertSpec L mc n (pre ++ [k]) c s count (f c s count))
    (es : Bucket) (hes : (es.map Prod.fst).Nodup) (hu : ∀ e ∈ es, Under L mc pre e.1)
    (ch : List (Nat × Node)) (hn : (ch.map Prod.fst).Nodup) (hch : ∀ p ∈ ch, WF L mc n (pre ++ [p.1]) p.2) :
    ∃ ch', redistribute f mc pre.length es ch = .ok ch' ∧ (ch'.map Prod.fst).Nodup ∧
      (∀ p ∈ ch', WF L mc n (pre ++ [p.1]) p.2) ∧
      ∀ s', Under L mc pre s' → find s' (entriesList ch') = match find s' es with
        | some c => some ((find s' (entriesList ch)).getD 0 + c)
        | none => find s' (entriesList ch) := by
  induction es generalizing ch with
  | nil => exact ⟨ch, rfl, hn, hch, fun s' _ => rfl⟩
  | cons e es ih =>
    simp only [List.map_cons, List.nodup_cons] at hes
    obtain ⟨k, hk, hsn⟩ := hashAt_of_under hmc (hu e (by simp)) hlt
    obtain ⟨ch1, h1, h2, h3, h4⟩ := withChild_spec (fun c => f c e.1 e.2) ch hn hch hsn (fun c hc => hf k c e.1 e.2 hsn hc)
    obtain ⟨ch2, h5, h6, h7, h8⟩ := ih hes.2 (fun x hx => hu x (by simp [hx])) ch1 h2 h3
    refine ⟨ch2, ?_, h6, h7, ?_⟩
    · simp only [redistribute, hk, Res.bind_ok, h1, h5]
    · intro s' hs'
      rw [h8 s' hs', h4 s' hs']
      simp only [find]
      by_cases he : e.1 = s'
      · subst he
        have : find e.1 es = none := find_eq_none.mpr hes.1
        simp [this]
      · rw [if_neg he, if_neg (Ne.symm he)]

theorem insert_spec {L ml mc : Nat} (hmc : 0 < mc) : ∀ (fuel n : Nat) (pre : List Nat) (node : Node) (s : List Nat)
    (count : Nat), pre.length + n = L → n < fuel → WF L mc n pre node → Under L mc pre s →
    InsertSpec L mc n pre node s count (insert ml mc fuel node s count pre.length) := by
  intro fuel
  induction fuel with
  | zero => intro n pre node s count _ h; omega
  | succ fuel ih =>
    rintro n pre ⟨lf, b, ch⟩ s count hL hfuel hwf hs
    cases n with
    | zero =>
      obtain ⟨rfl, rfl, hb1, hb2⟩ := hwf
      have hidx : pre.length = s.length := by rw [hs.1]; omega
      refine ⟨_, by simp only [insert]; rw [if_pos hidx], ?_, ?_⟩
      · refine ⟨rfl, rfl, keys_addCount b s count hb1, ?_⟩
        intro e he
        rcases mem_keys_addCount (List.mem_map.mpr ⟨e, he, rfl⟩) with h | h
        · rw [h]; exact hs
        · obtain ⟨e', he', h⟩ := List.mem_map.mp h
          rw [← h]; exact hb2 e' he'
      · intro s'
        rw [entries_leaf, entries_leaf, find_addCount]
    | succ n =>
      have hidx : ¬ pre.length = s.length := by rw [hs.1]; omega
      have hlt : pre.length < L := by omega
      have hchild : ∀ k c s count, Under L mc (pre ++ [k]) s → WF L mc n (pre ++ [k]) c →
          InsertSpec L mc n (pre ++ [k]) c s count (insert ml mc fuel c s count (pre.length + 1)) := by
        intro k c s count hu hc
        have := ih n (pre ++ [k]) c s count (by simp; omega) (by omega) hc hu
        simpa using this
      have hnotunder : ∀ (node : Node), WF L mc (n + 1) pre node → ∀ s', ¬ Under L mc pre s' → find s' node.entries = none :=
        fun node hnode s' hs' => find_entries_of_not_under hnode hs'
      cases lf with
      | false =>
        have hwf0 := hwf
        simp only [WF, Bool.false_eq_true, if_false] at hwf
        obtain ⟨rfl, hn, hch⟩ := hwf
        obtain ⟨k, hk, hsn⟩ := hashAt_of_under hmc hs hlt
        obtain ⟨ch1, h1, h2, h3, h4⟩ := withChild_spec
          (fun c => insert ml mc fuel c s count (pre.length + 1)) ch hn hch hsn (fun c hc => hchild k c s count hsn hc)
        have hwf1 : WF L mc (n + 1) pre (.mk false [] ch1) := by
          simp only [WF, Bool.false_eq_true, if_false]; exact ⟨trivial, h2, h3⟩
        refine ⟨.mk false [] ch1, ?_, hwf1, ?_⟩
        · simp only [insert]
          rw [if_neg hidx, if_pos trivial, hk]
          simp only [Res.bind_ok, h1]
        · intro s'
          by_cases hu : Under L mc pre s'
          · rw [entries_inner, entries_inner]
            exact h4 s' hu
          · rw [hnotunder _ hwf1 s' hu, hnotunder _ hwf0 s' hu, if_neg]
            rintro rfl
            exact hu hs
      | true =>
        have hwf0 := hwf
        rw [WF_leaf] at hwf
        obtain ⟨rfl, hb1, hb2⟩ := hwf
        have hk1 := keys_addCount b s count hb1
        have hk2 : ∀ e ∈ addCount b s count, Under L mc pre e.1 := by
          intro e he
          rcases mem_keys_addCount (List.mem_map.mpr ⟨e, he, rfl⟩) with h | h
          · rw [h]; exact hs
          · obtain ⟨e', he', h⟩ := List.mem_map.mp h
            rw [← h]; exact hb2 e' he'
        by_cases hfull : (addCount b s count).length = ml
        · obtain ⟨ch1, h1, h2, h3, h4⟩ := redistribute_spec hmc hlt
            (fun c e n => insert ml mc fuel c e n (pre.length + 1)) hchild (addCount b s count) hk1 hk2 []
            (by simp) (by simp)
          have hwf1 : WF L mc (n + 1) pre (.mk false [] ch1) := by
            simp only [WF, Bool.false_eq_true, if_false]; exact ⟨trivial, h2, h3⟩
          refine ⟨.mk false [] ch1, ?_, hwf1, ?_⟩
          · simp only [insert]
            rw [if_neg hidx, if_neg (by simp), if_pos hfull, h1]
            rfl
          · intro s'
            by_cases hu : Under L mc pre s'
            · rw [entries_inner, entries_leaf, h4 s' hu, entriesList_nil, find_addCount]
              by_cases hss : s' = s
              · simp [hss, find]
              · simp only [if_neg hss, find]
                cases find s' b <;> simp
            · rw [hnotunder _ hwf1 s' hu, hnotunder _ hwf0 s' hu, if_neg]
              rintro rfl
              exact hu hs
        · refine ⟨.mk true (addCount b s count) [], ?_, ?_, ?_⟩
          · simp only [insert]
            rw [if_neg hidx, if_neg (by simp), if_neg hfull]
          · rw [WF_leaf]; exact ⟨rfl, hk1, hk2⟩
          · intro s'
            rw [entries_leaf, entries_leaf, find_addCount]

/-! ## Counting -/

theorem addSupport_leaf (mc : Nat) (s : List Nat) (b : Bucket) (ch : List (Nat × Node)) (i : Nat) :
    (Node.mk true b ch).addSupport mc s i = .ok (.mk true (bump b s) ch) := by simp [Node.addSupport]

theorem addSupport_inner (mc : Nat) (s : List Nat) (b : Bucket) (ch : List (Nat × Node)) (i : Nat) :
    (Node.mk false b ch).addSupport mc s i = (hashAt mc s i >>= fun key =>
      addSupportList mc s key ch (i + 1) >>= fun ch' => .ok (.mk false b ch')) := by simp [Node.addSupport]

theorem addSupportList_cons (mc : Nat) (s : List Nat) (key : Nat) (p : Nat × Node) (r : List (Nat × Node)) (i : Nat) :
    addSupportList mc s key (p :: r) i =
      if p.1 = key then (p.2.addSupport mc s i >>= fun c' => .ok ((p.1, c') :: r))
      else (addSupportList mc s key r i >>= fun r' => .ok (p :: r')) := by
  obtain ⟨k, c⟩ := p
  simp only [addSupportList, addSupportPair]
  split
  · cases c.addSupport mc s i <;> simp
  · rfl

/-- What reporting an occurrence must achieve. -/
def AddSpec (L mc n : Nat) (pre : List Nat) (node : Node) (s : List Nat) (r : Res Node) : Prop :=
  ∃ node', r = .ok node' ∧ WF L mc n pre node' ∧
    ∀ s', find s' node'.entries = if s' = s then (find s node.entries).map (· + 1) else find s' node.entries

theorem addSupport_spec {L mc : Nat} (hmc : 0 < mc) : ∀ (n : Nat) (pre : List Nat) (node : Node) (s : List Nat),
    pre.length + n = L → WF L mc n pre node → Under L mc pre s →
    AddSpec L mc n pre node s (node.addSupport mc s pre.length) := by
  intro n
  have leafCase : ∀ (n : Nat) (pre : List Nat) (b : Bucket) (ch : List (Nat × Node)) (s : List Nat),
      WF L mc n pre (.mk true b ch) → AddSpec L mc n pre (.mk true b ch) s ((Node.mk true b ch).addSupport mc s pre.length) := by
    intro n pre b ch s hwf
    rw [WF_leaf] at hwf
    obtain ⟨rfl, h1, h2⟩ := hwf
    refine ⟨_, addSupport_leaf mc s b [] _, ?_, ?_⟩
    · rw [WF_leaf]
      refine ⟨rfl, ?_, ?_⟩
      · unfold bump; cases find s b <;> simpa [keys_replace] using h1
      · intro e he
        have hmem : e.1 ∈ b.map Prod.fst := by
          unfold bump at he
          cases hf : find s b with
          | none => rw [hf] at he; exact List.mem_map.mpr ⟨e, he, rfl⟩
          | some c =>
            rw [hf] at he
            rw [← keys_replace s (c + 1) b]
            exact List.mem_map.mpr ⟨e, he, rfl⟩
        obtain ⟨e', he', h⟩ := List.mem_map.mp hmem
        rw [← h]; exact h2 e' he'
    · intro s'
      rw [entries_leaf, entries_leaf]
      unfold bump
      cases hf : find s b with
      | none =>
        simp only
        by_cases hss : s' = s
        · simp [hss, hf]
        · simp [hss]
      | some c =>
        simp only
        rw [find_replace s s' _ b (by simp [hf])]
        by_cases hss : s' = s <;> simp [hss]
  induction n with
  | zero =>
    rintro pre ⟨lf, b, ch⟩ s hL hwf hs
    have : lf = true := hwf.1
    subst this
    exact leafCase 0 pre b ch s hwf
  | succ n ih =>
    rintro pre ⟨lf, b, ch⟩ s hL hwf hs
    cases lf with
    | true => exact leafCase (n + 1) pre b ch s hwf
    | false =>
      have hwf0 := hwf
      simp only [WF, Bool.false_eq_true, if_false] at hwf
      obtain ⟨rfl, hn, hch⟩ := hwf
      obtain ⟨k, hk, hsn⟩ := hashAt_of_under hmc hs (by omega)
      have hrec : ∀ c, WF L mc n (pre ++ [k]) c → AddSpec L mc n (pre ++ [k]) c s (c.addSupport mc s (pre.length + 1)) := by
        intro c hc
        have := ih (pre ++ [k]) c s (by simp; omega) hc hsn
        simpa using this
      have hlist : ∀ ch : List (Nat × Node), (∀ p ∈ ch, WF L mc n (pre ++ [p.1]) p.2) →
          ∃ ch', addSupportList mc s k ch (pre.length + 1) = .ok ch' ∧ ch'.map Prod.fst = ch.map Prod.fst ∧
            (∀ p ∈ ch', WF L mc n (pre ++ [p.1]) p.2) ∧
            ∀ k', find k' ch' = none ∧ find k' ch = none ∨
              ∃ c c', find k' ch = some c ∧ find k' ch' = some c' ∧
                (if k' = k then ∀ s', find s' c'.entries = if s' = s then (find s c.entries).map (· + 1)
                  else find s' c.entries
                else c' = c) := by
        intro ch hch
        induction ch with
        | nil => exact ⟨[], by simp [addSupportList], rfl, by simp, fun k' => Or.inl ⟨rfl, rfl⟩⟩
        | cons p r ihr =>
          rw [addSupportList_cons]
          by_cases hp : p.1 = k
          · rw [if_pos hp]
            obtain ⟨c', h1, h2, h3⟩ := hrec p.2 (by rw [← hp]; exact hch p (by simp))
            refine ⟨(p.1, c') :: r, by rw [h1]; rfl, by simp, ?_, ?_⟩
            · intro q hq
              rcases List.mem_cons.mp hq with rfl | hq
              · rw [hp]; exact h2
              · exact hch q (by simp [hq])
            · intro k'
              simp only [find]
              by_cases hk' : p.1 = k'
              · right
                refine ⟨p.2, c', by simp [hk'], by simp [hk'], ?_⟩
                rw [if_pos (by rw [← hk', hp])]
                exact h3
              · simp only [if_neg hk']
                cases hr : find k' r with
                | none => left; exact ⟨rfl, rfl⟩
                | some c =>
                  right
                  refine ⟨c, c, rfl, rfl, ?_⟩
                  rw [if_neg (by rintro rfl; exact hk' hp)]
          · rw [if_neg hp]
            obtain ⟨r', h1, h2, h3, h4⟩ := ihr (fun q hq => hch q (by simp [hq]))
            refine ⟨p :: r', by rw [h1]; rfl, by simp [h2], ?_, ?_⟩
            · intro q hq
              rcases List.mem_cons.mp hq with rfl | hq
              · exact hch _ (by simp)
              · exact h3 q hq
            · intro k'
              simp only [find]
              by_cases hk' : p.1 = k'
              · right
                refine ⟨p.2, p.2, by simp [hk'], by simp [hk'], ?_⟩
                rw [if_neg (by rintro rfl; exact hp hk')]
              · simp only [if_neg hk']
                exact h4 k'
      obtain ⟨ch', h1, h2, h3, h4⟩ := hlist ch hch
      have hn' : (ch'.map Prod.fst).Nodup := by rw [h2]; exact hn
      have hwf1 : WF L mc (n + 1) pre (.mk false [] ch') := by
        simp only [WF, Bool.false_eq_true, if_false]; exact ⟨trivial, hn', h3⟩
      refine ⟨.mk false [] ch', ?_, hwf1, ?_⟩
      · rw [addSupport_inner, hk]
        simp only [Res.bind_ok, h1]
      · intro s'
        by_cases hu : Under L mc pre s'
        · rw [entries_inner, entries_inner]
          have : ∃ k', Under L mc (pre ++ [k']) s' := by
            have hlt' : pre.length < s'.length := by rw [hu.1]; omega
            exact ⟨s'[pre.length] % mc, under_snoc.mpr ⟨hu, _, List.getElem?_eq_getElem hlt', rfl⟩⟩
          obtain ⟨k', hk'⟩ := this
          rw [find_entriesList ch' hn' h3 hk', find_entriesList ch hn hch hk']
          have hkey : s' = s → k' = k := by
            rintro rfl
            rw [under_snoc] at hk' hsn
            obtain ⟨_, v, hv, e1⟩ := hk'
            obtain ⟨_, v', hv', e2⟩ := hsn
            rw [hv] at hv'
            cases hv'
            rw [← e1, e2]
          rcases h4 k' with ⟨h5, h6⟩ | ⟨c, c', h5, h6, h7⟩
          · rw [h5, h6]
            by_cases hss : s' = s
            · have hkk := hkey hss
              subst hss
              rw [find_entriesList ch hn hch hk', h6]
              simp
            · simp [hss]
          · rw [h5, h6]
            by_cases hkk : k' = k
            · rw [if_pos hkk] at h7
              simp only [Option.bind_some]
              rw [h7 s']
              by_cases hss : s' = s
              · subst hss
                rw [find_entriesList ch hn hch hk', h5]
                simp
              · rw [if_neg hss, if_neg hss]
            · rw [if_neg hkk] at h7
              subst h7
              rw [if_neg (fun h => hkk (hkey h))]
        · rw [find_entries_of_not_under hwf1 hu, find_entries_of_not_under hwf0 hu, if_neg]
          rintro rfl
          exact hu hs

/-! ## Whole trees -/

/-- One operation of the specification carried out by the code. -/
def Tree.step (t : Tree) : CountOp → Res Tree
  | .register s => t.buildTree s
  | .occur s => t.addSupport s

/-- A sequence of operations. -/
def Tree.run (t : Tree) : List CountOp → Res Tree
  | [] => .ok t
  | op :: ops => do
    let t' ← t.step op
    t'.run ops

/-- Effect of one operation on a counter. -/
def stepCounter (m : List Nat → Option Nat) : CountOp → List Nat → Option Nat
  | .register s, s' => if s' = s then some ((m s).getD 0) else m s'
  | .occur s, s' => if s' = s then (m s).map (· + 1) else m s'

theorem step_spec {L : Nat} (t : Tree) (hmc : 0 < t.maxChild) (hwf : WF L t.maxChild L [] t.root) (op : CountOp)
    (hop : op.itemset.length = L) :
    ∃ t', t.step op = .ok t' ∧ t'.maxLeaf = t.maxLeaf ∧ t'.maxChild = t.maxChild ∧ t'.collected = t.collected ∧
      WF L t.maxChild L [] t'.root ∧
      ∀ s', find s' t'.root.entries = stepCounter (fun s => find s t.root.entries) op s' := by
  have hu : Under L t.maxChild [] op.itemset := ⟨hop, by simp⟩
  cases op with
  | register s =>
    obtain ⟨root', h1, h2, h3⟩ := insert_spec (ml := t.maxLeaf) hmc (max s.length t.root.longest + 1) L [] t.root s 0
      (by simp) (by simp only [CountOp.itemset] at hop; omega) hwf hu
    refine ⟨{ t with root := root' }, ?_, rfl, rfl, rfl, h2, ?_⟩
    · simp only [Tree.step, Tree.buildTree]
      simp only [List.length_nil] at h1
      rw [h1]; rfl
    · intro s'; rw [h3]; simp [stepCounter]
  | occur s =>
    obtain ⟨root', h1, h2, h3⟩ := addSupport_spec hmc L [] t.root s (by simp) hwf hu
    refine ⟨{ t with root := root' }, ?_, rfl, rfl, rfl, h2, ?_⟩
    · simp only [Tree.step, Tree.addSupport]
      simp only [List.length_nil] at h1
      rw [h1]; rfl
    · intro s'; rw [h3]; simp [stepCounter]

theorem run_spec {L : Nat} (ops : List CountOp) : ∀ (t : Tree), 0 < t.maxChild → WF L t.maxChild L [] t.root →
    (∀ op ∈ ops, op.itemset.length = L) →
    ∃ t', t.run ops = .ok t' ∧ t'.maxLeaf = t.maxLeaf ∧ t'.maxChild = t.maxChild ∧ t'.collected = t.collected ∧
      WF L t.maxChild L [] t'.root ∧
      ∀ s', find s' t'.root.entries = ops.foldl stepCounter (fun s => find s t.root.entries) s' := by
  induction ops with
  | nil => intro t _ hwf _; exact ⟨t, rfl, rfl, rfl, rfl, hwf, fun _ => rfl⟩
  | cons op ops ih =>
    intro t hmc hwf hops
    obtain ⟨t1, h1, h2, h3, h4, h5, h6⟩ := step_spec t hmc hwf op (hops op (by simp))
    obtain ⟨t2, h7, h8, h9, h10, h11, h12⟩ := ih t1 (by rw [h3]; exact hmc) (by rw [h3]; exact h5)
      (fun o ho => hops o (by simp [ho]))
    refine ⟨t2, ?_, by rw [h8, h2], by rw [h9, h3], by rw [h10, h4], by rw [h3] at h11; exact h11, ?_⟩
    · simp only [Tree.run, h1, Res.bind_ok, h7]
    · intro s'
      rw [h12]
      have : (fun s => find s t1.root.entries) = stepCounter (fun s => find s t.root.entries) op := funext h6
      rw [this]; rfl

theorem foldl_stepCounter (ops : List CountOp) (m : List Nat → Option Nat) (s : List Nat) :
    ops.foldl stepCounter m s = match m s with
      | some c => some (c + ops.count (.occur s))
      | none => counterAfter ops s := by
  induction ops generalizing m with
  | nil => cases h : m s <;> simp [counterAfter, h]
  | cons op ops ih =>
    rw [List.foldl_cons, ih]
    cases op with
    | register r =>
      by_cases hrs : s = r
      · subst hrs
        cases h : m s <;> simp [stepCounter, counterAfter, h]
      · have hne : CountOp.register r ≠ CountOp.register s := fun e => hrs (by cases e; rfl)
        cases h : m s <;> simp [stepCounter, counterAfter, hrs, h, hne]
    | occur r =>
      by_cases hrs : s = r
      · subst hrs
        cases h : m s
        · simp [stepCounter, counterAfter, h]
        · simp [stepCounter, h]; omega
      · have hne : CountOp.occur r ≠ CountOp.occur s := fun e => hrs (by cases e; rfl)
        cases h : m s <;> simp [stepCounter, counterAfter, hrs, h, hne]

theorem find_filter_nodup {b : Bucket} (hn : (b.map Prod.fst).Nodup) (support : Nat) (s : List Nat) (c : Nat) :
    (s, c) ∈ b.filter (fun e => decide (support ≤ e.2)) ↔ find s b = some c ∧ support ≤ c := by
  rw [List.mem_filter, mem_iff_find hn]; simp

end OpenML.HashTree
