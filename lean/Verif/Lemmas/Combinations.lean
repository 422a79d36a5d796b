import Verif.Model.Combinations
import Verif.Spec.Selections
import Mathlib.Data.Nat.Choose.Basic
import Mathlib.Data.List.Chain

namespace OpenML.Combinations
open OpenML.Spec

/-- All masks of length `n` with `k` ones, greatest first. -/
def masks : Nat → Nat → List (List Bool)
  | 0, 0 => [[]]
  | 0, _ + 1 => []
  | n + 1, 0 => (masks n 0).map (false :: ·)
  | n + 1, k + 1 => (masks n k).map (true :: ·) ++ (masks n (k + 1)).map (false :: ·)

theorem masks_length (n k : Nat) : (masks n k).length = n.choose k := by
  induction n generalizing k with
  | zero => cases k <;> simp [masks]
  | succ n ih => cases k <;> simp [masks, ih, Nat.choose_succ_succ]

theorem masks_gt {n k : Nat} (h : n < k) : masks n k = [] := by
  have := masks_length n k
  rw [Nat.choose_eq_zero_of_lt h] at this
  exact List.length_eq_zero_iff.mp this

theorem masks_ne_nil {n k : Nat} (h : k ≤ n) : masks n k ≠ [] := by
  intro h0
  have := masks_length n k
  rw [h0] at this
  have h2 := Nat.choose_pos h
  simp at this; omega

theorem masks_mem_length {n k : Nat} {m : List Bool} (h : m ∈ masks n k) : m.length = n := by
  induction n generalizing k m with
  | zero => cases k <;> simp_all [masks]
  | succ n ih =>
    cases k <;> simp [masks] at h
    · obtain ⟨a, ha, rfl⟩ := h; simp [ih ha]
    · rcases h with ⟨a, ha, rfl⟩ | ⟨a, ha, rfl⟩ <;> simp [ih ha]

theorem masks_head? {n k : Nat} (h : k ≤ n) :
    (masks n k).head? = some (List.replicate k true ++ List.replicate (n - k) false) := by
  induction n generalizing k with
  | zero => obtain rfl : k = 0 := by omega
            simp [masks]
  | succ n ih =>
    cases k with
    | zero => simp [masks, ih (Nat.zero_le n), List.replicate_succ]
    | succ k =>
      simp [masks, ih (show k ≤ n by omega), List.replicate_succ]

theorem masks_getLast? {n k : Nat} (h : k ≤ n) :
    (masks n k).getLast? = some (List.replicate (n - k) false ++ List.replicate k true) := by
  induction n generalizing k with
  | zero => obtain rfl : k = 0 := by omega
            simp [masks]
  | succ n ih =>
    cases k with
    | zero => simp [masks, ih (Nat.zero_le n), List.replicate_succ]
    | succ k =>
      rcases Nat.lt_or_ge n (k + 1) with hk | hk
      · obtain rfl : n = k := by omega
        simp [masks, masks_gt hk, ih (Nat.le_refl n), List.replicate_succ]
      · have e : n + 1 - (k + 1) = (n - (k + 1)) + 1 := by omega
        simp [masks, ih hk, e, List.replicate_succ]

theorem splitLastLess_true_trues (r : Nat) :
    splitLastLess boolLt true (List.replicate r true) = none := by
  induction r with
  | zero => rfl
  | succ r ih => simp [List.replicate_succ, splitLastLess, ih, boolLt]

theorem splitLastLess_block (m r : Nat) :
    splitLastLess boolLt true (List.replicate (m + 1) false ++ List.replicate r true)
      = some (List.replicate m false, false, List.replicate r true) := by
  induction m with
  | zero => simp [splitLastLess, splitLastLess_true_trues, boolLt]
  | succ m ih =>
    rw [List.replicate_succ, List.cons_append, splitLastLess, ih]
    simp [List.replicate_succ]

theorem prev_trues (r : Nat) : prevPermutation boolLt (List.replicate r true) = none := by
  induction r with
  | zero => rfl
  | succ r ih =>
    rw [List.replicate_succ, prevPermutation, ih]
    cases r <;> simp [List.replicate_succ, pivotStep, boolLt]

theorem prev_block (m r : Nat) :
    prevPermutation boolLt (List.replicate m false ++ List.replicate r true) = none := by
  induction m with
  | zero => simpa using prev_trues r
  | succ m ih =>
    rw [List.replicate_succ, List.cons_append, prevPermutation, ih]
    cases hc : List.replicate m false ++ List.replicate r true <;> simp [pivotStep, boolLt]

theorem prev_pivot (m r : Nat) :
    prevPermutation boolLt (true :: (List.replicate (m + 1) false ++ List.replicate r true))
      = some (false :: (List.replicate (r + 1) true ++ List.replicate m false)) := by
  rw [prevPermutation, prev_block (m + 1) r]
  simp only [pivotStep]
  rw [splitLastLess_block]
  simp [List.replicate_succ, boolLt]
  rw [← List.cons_append, ← List.replicate_succ, List.replicate_succ']
  simp

theorem prev_cons {b : Bool} {m m' : List Bool} (h : prevPermutation boolLt m = some m') :
    prevPermutation boolLt (b :: m) = some (b :: m') := by
  rw [prevPermutation, h]

theorem masks_chain (n k : Nat) :
    (masks n k).IsChain (fun a b => prevPermutation boolLt a = some b) := by
  induction n generalizing k with
  | zero => cases k <;> simp [masks]
  | succ n ih =>
    cases k with
    | zero =>
      simp only [masks]
      rw [List.isChain_map]
      exact (ih 0).imp fun _ _ h => prev_cons h
    | succ k =>
      simp only [masks]
      rw [List.isChain_append]
      refine ⟨?_, ?_, ?_⟩
      · rw [List.isChain_map]; exact (ih k).imp fun _ _ h => prev_cons h
      · rw [List.isChain_map]; exact (ih (k + 1)).imp fun _ _ h => prev_cons h
      · intro a ha b hb
        rcases Nat.lt_or_ge n (k + 1) with hk | hk
        · simp [masks_gt hk] at hb
        · rw [List.getLast?_map, masks_getLast? (show k ≤ n by omega)] at ha
          rw [List.head?_map, masks_head? hk] at hb
          simp at ha hb
          subst ha; subst hb
          have e : n - k = (n - (k + 1)) + 1 := by omega
          rw [e]
          exact prev_pivot _ _

theorem loop_chain {α : Type} (x : List α) :
    ∀ (L : List (List Bool)) (m : List Bool) (fuel : Nat),
      (m :: L).IsChain (fun a b => prevPermutation boolLt a = some b) →
      (∀ l, (m :: L).getLast? = some l → prevPermutation boolLt l = none) →
      L.length < fuel → loop x fuel m = .ok ((m :: L).map (select · x)) := by
  intro L
  induction L with
  | nil =>
    intro m fuel _ hl hf
    obtain ⟨fuel, rfl⟩ : ∃ f, fuel = f + 1 := ⟨fuel - 1, by simp at hf; omega⟩
    simp [loop, hl m rfl]
  | cons b L ih =>
    intro m fuel hc hl hf
    obtain ⟨fuel, rfl⟩ : ∃ f, fuel = f + 1 := ⟨fuel - 1, by simp at hf; omega⟩
    rw [List.isChain_cons_cons] at hc
    rw [loop, hc.1]
    simp only
    rw [ih b fuel hc.2 (by intro l h; exact hl l (by rw [List.getLast?_cons_cons]; exact h)) (by simpa using hf)]
    simp [Res.bind]

theorem combinationsFuel_eq {α : Type} (x : List α) (k fuel : Nat) (h : x.length.choose k ≤ fuel) :
    combinationsFuel fuel x k = .ok ((masks x.length k).map (select · x)) := by
  unfold combinationsFuel
  by_cases hk : x.length < k
  · simp [hk, masks_gt hk]
  · simp only [hk, if_false]
    have hk' : k ≤ x.length := by omega
    have hd := masks_head? hk'
    cases hm : masks x.length k with
    | nil => simp [hm] at hd
    | cons m L =>
      rw [hm] at hd
      simp at hd
      rw [← hd]
      apply loop_chain
      · rw [← hm]; exact masks_chain _ _
      · intro l hl
        rw [← hm, masks_getLast? hk'] at hl
        simp at hl
        subst hl
        exact prev_block _ _
      · have := masks_length x.length k
        rw [hm] at this
        simp at this
        omega

theorem choose_le_two_pow (n k : Nat) : n.choose k ≤ 2 ^ n := by
  induction n generalizing k with
  | zero => cases k <;> simp
  | succ n ih =>
    cases k with
    | zero => simp; exact Nat.one_le_two_pow
    | succ k => rw [Nat.choose_succ_succ, Nat.pow_succ]; have := ih k; have := ih k.succ; omega

theorem combinations_eq {α : Type} (x : List α) (k : Nat) :
    combinations x k = .ok ((masks x.length k).map (select · x)) :=
  combinationsFuel_eq x k _ (choose_le_two_pow _ _)

/-! ### From masks to position lists -/

/-- Positions of the ones of a mask, counted from `s`. -/
def ones : Nat → List Bool → List Nat
  | _, [] => []
  | s, b :: bs => if b then s :: ones (s + 1) bs else ones (s + 1) bs

theorem ones_ge {s : Nat} {m : List Bool} {i : Nat} (h : i ∈ ones s m) : s ≤ i ∧ i < s + m.length := by
  induction m generalizing s with
  | nil => simp [ones] at h
  | cons b bs ih =>
    cases b <;> simp [ones] at h
    · have := ih h; simp; omega
    · rcases h with rfl | h
      · simp
      · have := ih h; simp; omega

theorem select_eq_entriesAt {α : Type} (x : List α) :
    ∀ (pre : List α) (m : List Bool), m.length = x.length →
      select m x = entriesAt (pre ++ x) (ones pre.length m) := by
  induction x with
  | nil => intro pre m h; cases m <;> simp_all [select, ones, entriesAt]
  | cons a x ih =>
    intro pre m h
    cases m with
    | nil => simp at h
    | cons b m =>
      have := ih (pre ++ [a]) m (by simpa using h)
      cases b <;> simp [select, ones, entriesAt] at this ⊢ <;> exact this

theorem ones_sorted (s : Nat) (m : List Bool) : (ones s m).Pairwise (· < ·) := by
  induction m generalizing s with
  | nil => simp [ones]
  | cons b bs ih =>
    cases b <;> simp [ones]
    · exact ih _
    · exact ⟨fun a ha => by have := ones_ge ha; omega, ih _⟩

theorem ones_length {n k : Nat} {m : List Bool} (h : m ∈ masks n k) (s : Nat) : (ones s m).length = k := by
  induction n generalizing k m s with
  | zero => cases k <;> simp_all [masks, ones]
  | succ n ih =>
    cases k <;> simp [masks] at h
    · obtain ⟨a, ha, rfl⟩ := h; simp [ones]; simpa using ih ha (s + 1)
    · rcases h with ⟨a, ha, rfl⟩ | ⟨a, ha, rfl⟩ <;> simp [ones, ih ha]

theorem ones_complete {n k s : Nat} {p : List Nat} (hl : p.length = k) (hp : p.Pairwise (· < ·))
    (hb : ∀ i ∈ p, s ≤ i ∧ i < s + n) : ∃ m ∈ masks n k, ones s m = p := by
  induction n generalizing k s p with
  | zero =>
    cases p with
    | nil => simp at hl; subst hl; exact ⟨[], by simp [masks], rfl⟩
    | cons a p => have := hb a (by simp); omega
  | succ n ih =>
    cases p with
    | nil =>
      simp at hl; subst hl
      obtain ⟨m, hm, ho⟩ := ih (k := 0) (s := s + 1) (p := []) rfl (by simp) (by simp)
      exact ⟨false :: m, by simp [masks, hm], by simp [ones, ho]⟩
    | cons a p =>
      obtain ⟨k, rfl⟩ : ∃ j, k = j + 1 := ⟨p.length, by simpa using hl.symm⟩
      have hlt : ∀ i ∈ p, a < i := (List.pairwise_cons.mp hp).1
      have ha := hb a (by simp)
      by_cases has : a = s
      · subst has
        obtain ⟨m, hm, ho⟩ := ih (k := k) (s := a + 1) (p := p) (by simpa using hl)
          (List.pairwise_cons.mp hp).2
          (fun i hi => by have := hlt i hi; have := hb i (by simp [hi]); omega)
        exact ⟨true :: m, by simp [masks, hm], by simp [ones, ho]⟩
      · obtain ⟨m, hm, ho⟩ := ih (k := k + 1) (s := s + 1) (p := a :: p) hl hp
          (fun i hi => by
            have := hb i hi
            simp at hi
            rcases hi with rfl | hi
            · omega
            · have := hlt i hi; omega)
        exact ⟨false :: m, by simp [masks, hm], by simp [ones, ho]⟩

theorem ones_lex (n k s : Nat) : ((masks n k).map (ones s)).Pairwise LexLt := by
  induction n generalizing k s with
  | zero => cases k <;> simp [masks]
  | succ n ih =>
    have hf : ∀ k, (((masks n k).map (false :: ·)).map (ones s)) = (masks n k).map (ones (s + 1)) := by
      intro k; simp [ones]
    have ht : ∀ k, (((masks n k).map (true :: ·)).map (ones s))
        = ((masks n k).map (ones (s + 1))).map (s :: ·) := by
      intro k; simp [ones]
    cases k with
    | zero => simp only [masks]; rw [hf]; exact ih _ _
    | succ k =>
      simp only [masks, List.map_append]
      rw [hf, ht, List.pairwise_append]
      refine ⟨?_, ih _ _, ?_⟩
      · rw [List.pairwise_map]
        exact (ih k (s + 1)).imp fun h => Or.inr ⟨rfl, h⟩
      · intro a ha b hb
        simp at ha hb
        obtain ⟨ma, _, rfl⟩ := ha
        obtain ⟨mb, hmb, rfl⟩ := hb
        have hlen := ones_length hmb (s + 1)
        cases ho : ones (s + 1) mb with
        | nil => simp [ho] at hlen
        | cons c cs =>
          have : c ∈ ones (s + 1) mb := by simp [ho]
          have := ones_ge this
          exact Or.inl (by omega)

theorem mem_select_masks {α : Type} (x : List α) (k : Nat) (c : List α) :
    (∃ m ∈ masks x.length k, select m x = c) ↔ c.Sublist x ∧ c.length = k := by
  induction x generalizing k c with
  | nil =>
    cases k <;> simp [masks, select]
    rintro rfl; simp
  | cons a x ih =>
    constructor
    · rintro ⟨m, hm, rfl⟩
      cases k with
      | zero =>
        simp [masks] at hm
        obtain ⟨m, hm, rfl⟩ := hm
        have := (ih 0 (select m x)).mp ⟨m, hm, rfl⟩
        simp [select]
        exact ⟨this.1.cons _, by simpa using this.2⟩
      | succ k =>
        simp [masks] at hm
        rcases hm with ⟨m, hm, rfl⟩ | ⟨m, hm, rfl⟩
        · have := (ih k (select m x)).mp ⟨m, hm, rfl⟩
          simp [select]; exact this
        · have := (ih (k + 1) (select m x)).mp ⟨m, hm, rfl⟩
          simp [select]
          exact ⟨this.1.cons _, this.2⟩
    · rintro ⟨hs, hl⟩
      cases hs with
      | cons _ hs =>
        obtain ⟨m, hm, hc⟩ := (ih k c).mpr ⟨hs, hl⟩
        refine ⟨false :: m, ?_, by simp [select, hc]⟩
        cases k <;> simp [masks, hm]
      | cons_cons _ hs =>
        obtain ⟨k, rfl⟩ : ∃ j, k = j + 1 := ⟨k - 1, by simp at hl; omega⟩
        obtain ⟨m, hm, hc⟩ := (ih k _).mpr ⟨hs, by simpa using hl⟩
        exact ⟨true :: m, by simp [masks, hm], by simp [select, hc]⟩

theorem mem_combinations {α : Type} {x : List α} {k : Nat} {r : List (List α)}
    (h : combinations x k = .ok r) {c : List α} : c ∈ r ↔ c.Sublist x ∧ c.length = k := by
  rw [combinations_eq] at h
  cases h
  rw [← mem_select_masks]
  simp

end OpenML.Combinations
