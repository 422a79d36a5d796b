import Verif.Model.SvdFlip
import Verif.Spec.SvdFlip
import Verif.Spec.Extreme
import Verif.Lemmas.Extreme
import Verif.Lemmas.DMat
import Verif.Lemmas.MapRes
import Mathlib.Tactic.Ring

/-!
# Lemmas about `svd_flip`
-/

set_option linter.unusedSectionVars false

namespace OpenML.SvdFlip
open Spec

variable {α : Type} [CommRing α] [LinearOrder α] [IsStrictOrderedRing α]

theorem entryAt_eq (x : DMat α) (hx : x.WF) (i j : Nat) (hi : i < x.nrows) (hj : j < x.ncols) :
    entryAt x i j = .ok (entry x i j) := by
  have hi' : i < x.rows.length := hi
  have hl := hx _ (List.getElem_mem hi')
  have hj' : j < x.rows[i].length := by omega
  simp [entryAt, entry, readAt, hi', hj']

theorem getElem?_col_entry (x : DMat α) (hx : x.WF) (i j : Nat) (hi : i < x.nrows) (hj : j < x.ncols) :
    (x.col j)[i]? = some (entry x i j) := by
  have hi' : i < x.rows.length := hi
  have hl := hx _ (List.getElem_mem hi')
  have hj' : j < x.rows[i].length := by omega
  rw [DMat.getElem?_col hx hj]
  simp [entry, hi', hj']

theorem getElem?_row_entry (x : DMat α) (hx : x.WF) (i j : Nat) (hi : i < x.nrows) (hj : j < x.ncols) :
    (x.rows.getD i [])[j]? = some (entry x i j) := by
  have hi' : i < x.rows.length := hi
  have hl := hx _ (List.getElem_mem hi')
  have hj' : j < x.rows[i].length := by omega
  simp [entry, hi', hj']

/-- `p` is the first position of the largest absolute value among the first `n` values. -/
def IsTop (f : Nat → α) (n p : Nat) : Prop := p < n ∧ ∀ i < n, |f i| ≤ |f p| ∧ (|f i| = |f p| → p ≤ i)

theorem isTop_of_firstMax (f : Nat → α) (n : Nat) (l : List α) (hl : l.length = n) (hf : ∀ i < n, l[i]? = some |f i|) (p : Nat)
    (h : IsFirstMax l p) : IsTop f n p := by
  obtain ⟨v, hv, hm⟩ := h
  have hp : p < n := by rw [← hl]; exact (List.getElem?_eq_some_iff.mp hv).1
  rw [hf p hp] at hv
  cases hv
  exact ⟨hp, fun i hi => ⟨(hm i _ (hf i hi)).1, fun he => (hm i _ (hf i hi)).2 he⟩⟩

theorem col_absMat (x : DMat α) (j : Nat) : (absMat x).col j = (x.col j).map fun a => |a| := by
  unfold absMat DMat.col
  simp only [List.filterMap_map, List.map_filterMap]
  congr 1
  funext r
  simp

theorem columnSigns_spec (U : DMat α) (hU : U.WF) (hr : 0 < U.nrows) :
    ∃ signs : List α, columnSigns U = .ok signs ∧ signs.length = U.ncols ∧
      ∀ j < U.ncols, ∃ p, IsTop (fun i => entry U i j) U.nrows p ∧ signs[j]? = some (sgn (entry U p j)) := by
  have key : ∀ (n j0 : Nat), j0 + n = U.ncols → ∃ idx : List Nat,
      mapRes maxCoeffIdx ((List.range' j0 n).map (absMat U).col) = .ok idx ∧ idx.length = n ∧
      ∃ top, mapRes (fun (e : Nat × Nat) => entryAt U e.1 e.2) (idx.zipIdx j0) = .ok top ∧ top.length = n ∧
        ∀ k < n, ∃ p, IsTop (fun i => entry U i (j0 + k)) U.nrows p ∧ top[k]? = some (entry U p (j0 + k)) := by
    intro n
    induction n with
    | zero => intro j0 _; exact ⟨[], rfl, rfl, [], rfl, rfl, by simp⟩
    | succ n ih =>
      intro j0 hj
      obtain ⟨idx, h1, h2, top, h3, h4, h5⟩ := ih (j0 + 1) (by omega)
      have hj0 : j0 < U.ncols := by omega
      have hlen : ((absMat U).col j0).length = U.nrows := by rw [col_absMat, List.length_map, DMat.length_col hU hj0]
      obtain ⟨p, hp1, hp2⟩ := maxCoeffIdx_spec ((absMat U).col j0) (by
        intro h; rw [h] at hlen; simp at hlen; omega)
      have ht : IsTop (fun i => entry U i j0) U.nrows p := by
        refine isTop_of_firstMax _ _ _ hlen (fun i hi => ?_) p hp2
        rw [col_absMat, List.getElem?_map, getElem?_col_entry U hU i j0 hi hj0]
        rfl
      refine ⟨p :: idx, ?_, by simp [h2], entry U p j0 :: top, ?_, by simp [h4], ?_⟩
      · rw [List.range'_succ, List.map_cons, mapRes, hp1]
        simp only [Res.bind_ok, h1]
      · rw [List.zipIdx_cons, mapRes]
        simp only
        rw [entryAt_eq U hU p j0 ht.1 hj0]
        simp [h3]
      · intro k hk
        cases k with
        | zero => exact ⟨p, ht, rfl⟩
        | succ k =>
          obtain ⟨q, hq1, hq2⟩ := h5 k (by omega)
          refine ⟨q, ?_, ?_⟩
          · rw [show j0 + (k + 1) = j0 + 1 + k by omega]; exact hq1
          · rw [show j0 + (k + 1) = j0 + 1 + k by omega]; simpa using hq2
  obtain ⟨idx, h1, h2, top, h3, h4, h5⟩ := key U.ncols 0 (by omega)
  rw [← List.range_eq_range'] at h1
  refine ⟨top.map sgn, ?_, by simp [h4], ?_⟩
  · have h1' : MatOps.argmax (absMat U) 0 = .ok idx := h1
    simp only [columnSigns, h1', Res.bind_ok, h3]
  · intro j hj
    obtain ⟨p, hp1, hp2⟩ := h5 j hj
    simp only [Nat.zero_add] at hp1 hp2
    exact ⟨p, hp1, by rw [List.getElem?_map, hp2]; rfl⟩

theorem rowSigns_spec (V : DMat α) (hV : V.WF) (hc : 0 < V.ncols) :
    ∃ signs : List α, rowSigns V = .ok signs ∧ signs.length = V.nrows ∧
      ∀ i < V.nrows, ∃ p, IsTop (fun j => entry V i j) V.ncols p ∧ signs[i]? = some (sgn (entry V i p)) := by
  have key : ∀ (n i0 : Nat), i0 + n = V.nrows → ∃ idx : List Nat,
      mapRes maxCoeffIdx (((V.rows.drop i0).map fun r => r.map fun a => |a|)) = .ok idx ∧ idx.length = n ∧
      ∃ top, mapRes (fun (e : Nat × Nat) => entryAt V e.2 e.1) (idx.zipIdx i0) = .ok top ∧ top.length = n ∧
        ∀ k < n, ∃ p, IsTop (fun j => entry V (i0 + k) j) V.ncols p ∧ top[k]? = some (entry V (i0 + k) p) := by
    intro n
    induction n with
    | zero =>
      intro i0 h
      refine ⟨[], ?_, rfl, [], rfl, rfl, by simp⟩
      rw [List.drop_eq_nil_of_le (by show V.nrows ≤ i0; omega)]
      rfl
    | succ n ih =>
      intro i0 hi
      obtain ⟨idx, h1, h2, top, h3, h4, h5⟩ := ih (i0 + 1) (by omega)
      have hi0 : i0 < V.rows.length := by show i0 < V.nrows; omega
      have hlen : (V.rows[i0].map fun a => |a|).length = V.ncols := by
        rw [List.length_map, hV _ (List.getElem_mem hi0)]
      obtain ⟨p, hp1, hp2⟩ := maxCoeffIdx_spec (V.rows[i0].map fun a => |a|) (by
        intro h; rw [h] at hlen; simp at hlen; omega)
      have ht : IsTop (fun j => entry V i0 j) V.ncols p := by
        refine isTop_of_firstMax _ _ _ hlen (fun j hj => ?_) p hp2
        have := getElem?_row_entry V hV i0 j hi0 hj
        rw [List.getD_eq_getElem?_getD, List.getElem?_eq_getElem hi0, Option.getD_some] at this
        rw [List.getElem?_map, this]
        rfl
      refine ⟨p :: idx, ?_, by simp [h2], entry V i0 p :: top, ?_, by simp [h4], ?_⟩
      · rw [List.drop_eq_getElem_cons hi0, List.map_cons, mapRes, hp1]
        simp only [Res.bind_ok, h1]
      · rw [List.zipIdx_cons, mapRes]
        simp only
        rw [entryAt_eq V hV i0 p hi0 ht.1]
        simp [h3]
      · intro k hk
        cases k with
        | zero => exact ⟨p, ht, rfl⟩
        | succ k =>
          obtain ⟨q, hq1, hq2⟩ := h5 k (by omega)
          refine ⟨q, ?_, ?_⟩
          · rw [show i0 + (k + 1) = i0 + 1 + k by omega]; exact hq1
          · rw [show i0 + (k + 1) = i0 + 1 + k by omega]; simpa using hq2
  obtain ⟨idx, h1, h2, top, h3, h4, h5⟩ := key V.nrows 0 (by omega)
  rw [List.drop_zero] at h1
  refine ⟨top.map sgn, ?_, by simp [h4], ?_⟩
  · have h1' : MatOps.argmax (absMat V) 1 = .ok idx := h1
    simp only [rowSigns, h1', Res.bind_ok, h3]
  · intro j hj
    obtain ⟨p, hp1, hp2⟩ := h5 j hj
    simp only [Nat.zero_add] at hp1 hp2
    exact ⟨p, hp1, by rw [List.getElem?_map, hp2]; rfl⟩

theorem scaleColumns_spec (U : DMat α) (hU : U.WF) (signs : List α) (h : signs.length = U.ncols) :
    ∃ U', scaleColumns U signs = .ok U' ∧ U'.WF ∧ U'.nrows = U.nrows ∧ U'.ncols = U.ncols ∧
      ∀ i j, entry U' i j = entry U i j * signs.getD j 0 := by
  refine ⟨{ U with rows := U.rows.map fun r => List.zipWith (· * ·) r signs }, by rw [scaleColumns, if_pos h.symm], ?_, by simp [DMat.nrows], rfl, ?_⟩
  · intro r hr
    obtain ⟨q, hq, rfl⟩ := List.mem_map.mp hr
    simp [hU q hq, h]
  · intro i j
    simp only [entry]
    by_cases hi : i < U.rows.length
    · have hl := hU _ (List.getElem_mem hi)
      by_cases hj : j < U.ncols
      · have hj' : j < U.rows[i].length := by omega
        have hj2 : j < signs.length := by omega
        have hz : (List.zipWith (· * ·) U.rows[i] signs)[j]? = some (U.rows[i][j] * signs[j]) := by
          rw [List.getElem?_eq_getElem (by simp; omega), List.getElem_zipWith]
        simp [hi, hj', hj2, hz]
      · have hj' : ¬ j < U.rows[i].length := by omega
        simp [hi, hj']
    · simp [hi]

theorem scaleRows_spec (V : DMat α) (hV : V.WF) (signs : List α) (h : signs.length = V.nrows) :
    ∃ V', scaleRows V signs = .ok V' ∧ V'.WF ∧ V'.nrows = V.nrows ∧ V'.ncols = V.ncols ∧
      ∀ i j, entry V' i j = entry V i j * signs.getD i 0 := by
  refine ⟨{ V with rows := List.zipWith (fun r s => r.map (· * s)) V.rows signs }, by rw [scaleRows, if_pos h.symm], ?_, by simp [DMat.nrows, h], rfl, ?_⟩
  · intro r hr
    obtain ⟨i, hi, rfl⟩ := List.mem_iff_getElem.mp hr
    rw [List.getElem_zipWith, List.length_map]
    exact hV _ (List.getElem_mem _)
  · intro i j
    simp only [entry]
    by_cases hi : i < V.rows.length
    · have hi2 : i < signs.length := by rw [h]; exact hi
      by_cases hj : j < V.rows[i].length
      · simp [hi, hi2, hj]
      · simp [hi, hi2, hj]
    · have hi2 : ¬ i < signs.length := by rw [h]; exact hi
      simp [hi, hi2]

/-- Both modes: some signs are applied to the columns of `U` and the rows of `Vt`. -/
theorem svdFlip_spec (U V : DMat α) (hU : U.WF) (hV : V.WF) (hd : V.nrows = U.ncols) (b : Bool) (signs : List α)
    (hs : (if b then columnSigns U else rowSigns V) = .ok signs) (hl : signs.length = U.ncols) :
    ∃ U' V', svdFlip U V b = .ok (U', V') ∧ U'.WF ∧ V'.WF ∧ U'.nrows = U.nrows ∧ U'.ncols = U.ncols ∧
      V'.nrows = V.nrows ∧ V'.ncols = V.ncols ∧
      (∀ i j, entry U' i j = entry U i j * signs.getD j 0) ∧ ∀ i j, entry V' i j = entry V i j * signs.getD i 0 := by
  obtain ⟨U', h1, h2, h3, h4, h5⟩ := scaleColumns_spec U hU signs hl
  obtain ⟨V', k1, k2, k3, k4, k5⟩ := scaleRows_spec V hV signs (hl.trans hd.symm)
  refine ⟨U', V', ?_, h2, k2, h3, h4, k3, k4, h5, k5⟩
  cases b
  · simp only [Bool.false_eq_true, if_false] at hs
    simp [svdFlip, hs, h1, k1]
  · simp only [if_true] at hs
    simp [svdFlip, hs, h1, k1]

theorem sgn_sq (a : α) (h : a ≠ 0) : sgn a * sgn a = 1 := by
  unfold sgn
  rcases lt_or_gt_of_ne h with h | h
  · rw [if_neg (not_lt.mpr h.le), if_pos h]; ring
  · rw [if_pos h]; ring

theorem mul_sgn (a : α) : a * sgn a = |a| := by
  unfold sgn
  rcases lt_trichotomy a 0 with h | h | h
  · rw [if_neg (not_lt.mpr h.le), if_pos h, abs_of_neg h]; ring
  · simp [h]
  · rw [if_pos h, abs_of_pos h]; ring

theorem abs_mul_sgn (a b : α) (h : b ≠ 0) : |a * sgn b| = |a| := by
  unfold sgn
  rcases lt_or_gt_of_ne h with h | h
  · rw [if_neg (not_lt.mpr h.le), if_pos h]; simp
  · rw [if_pos h]; simp

theorem productEntry_eq (U V U' V' : DMat α) (σ : Nat → α) (hc : U'.ncols = U.ncols) (hσ : ∀ k < U.ncols, σ k * σ k = 1)
    (hU : ∀ i j, entry U' i j = entry U i j * σ j) (hV : ∀ i j, entry V' i j = entry V i j * σ i) (s : Nat → α) (i j : Nat) :
    productEntry U' s V' i j = productEntry U s V i j := by
  unfold productEntry
  rw [hc]
  congr 1
  apply List.map_congr_left
  intro k hk
  rw [hU, hV]
  have := hσ k (List.mem_range.mp hk)
  calc entry U i k * σ k * s k * (entry V k j * σ k) = entry U i k * s k * entry V k j * (σ k * σ k) := by ring
    _ = _ := by rw [this, mul_one]

end OpenML.SvdFlip
