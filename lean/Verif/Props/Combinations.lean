import Verif.Lemmas.Combinations

/-!
# C01: `common::combinations`
-/

namespace OpenML
open Combinations Spec

/-- C01. For every list and every `k`, `combinations` returns the entries at every selection of `k` positions, every
selection exactly once, in lexicographic order of positions; there are `C(|x|, k)` of them. -/
theorem C01_combinations_enumerates {α : Type} (x : List α) (k : Nat) :
    ∃ ps : List (List Nat),
      combinations x k = .ok (ps.map (entriesAt x)) ∧
      (∀ p, p ∈ ps ↔ IsSelection x.length k p) ∧
      ps.Pairwise LexLt ∧
      ps.length = x.length.choose k := by
  refine ⟨(masks x.length k).map (ones 0), ?_, ?_, ones_lex _ _ _, ?_⟩
  · rw [combinations_eq, List.map_map]
    congr 1
    apply List.map_congr_left
    intro m hm
    simpa using select_eq_entriesAt x [] m (masks_mem_length hm)
  · intro p
    simp only [List.mem_map, IsSelection]
    constructor
    · rintro ⟨m, hm, rfl⟩
      refine ⟨ones_length hm 0, ones_sorted 0 m, fun i hi => ?_⟩
      have := ones_ge hi
      rw [masks_mem_length hm] at this
      omega
    · rintro ⟨hl, hp, hb⟩
      exact ones_complete hl hp (fun i hi => by have := hb i hi; omega)
  · simp [masks_length]

/-- C01, termination: the loop needs exactly as many rounds as there are results, so any larger amount of fuel gives
the same answer; in particular it never diverges. -/
theorem C01_combinations_terminates {α : Type} (x : List α) (k fuel : Nat) (h : x.length.choose k ≤ fuel) :
    combinationsFuel fuel x k = combinations x k ∧ ∃ r, combinations x k = .ok r := by
  rw [combinations_eq, combinationsFuel_eq x k fuel h]
  exact ⟨rfl, _, rfl⟩

/-- C01, seen through values: the returned lists are exactly the subsequences of length `k`. -/
theorem C01_combinations_mem_iff {α : Type} (x : List α) (k : Nat) (r : List (List α))
    (h : combinations x k = .ok r) (c : List α) : c ∈ r ↔ c.Sublist x ∧ c.length = k :=
  mem_combinations h

/-- Non-trivial instance: four elements, with a repetition, taken two at a time. -/
example : combinations [1, 2, 2, 3] 2 = .ok [[1, 2], [1, 2], [1, 3], [2, 2], [2, 3], [2, 3]] := by decide
/-- More elements requested than present. -/
example : combinations [1, 2] 3 = .ok [] := by decide
example : (4 : Nat).choose 2 ≤ 6 := by decide

end OpenML
