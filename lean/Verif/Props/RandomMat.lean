import Mathlib.MeasureTheory.Measure.Lebesgue.Basic
import Verif.Model.RandomMat
import Verif.Props.KMeans

/-!
# C159: random matrices
-/

namespace OpenML

open RandomMat

namespace RandomMatLemmas

theorem fill_wf {α : Type} (n m : Nat) (f : Nat → α) : (fill n m f).WF ∧ (fill n m f).nrows = n ∧ (fill n m f).ncols = m := by
  refine ⟨fun r hr => ?_, by simp [fill, DMat.nrows], rfl⟩
  obtain ⟨i, _, rfl⟩ := List.mem_map.mp hr
  simp [fill]

theorem mem_fill {α : Type} {n m : Nat} {f : Nat → α} {r : List α} {a : α} (hr : r ∈ (fill n m f).rows) (ha : a ∈ r) : ∃ k, a = f k := by
  obtain ⟨i, _, rfl⟩ := List.mem_map.mp hr
  obtain ⟨j, _, rfl⟩ := List.mem_map.mp ha
  exact ⟨_, rfl⟩

/-- The call that computes an entry determines the entry. -/
theorem call_entry {n i j : Nat} (hi : i < n) : (j * n + i) % n = i ∧ (j * n + i) / n = j := by
  constructor
  · rw [Nat.add_comm, Nat.add_mul_mod_self_right, Nat.mod_eq_of_lt hi]
  · rw [Nat.add_comm, Nat.add_mul_div_right _ _ (by omega), Nat.div_eq_of_lt hi, Nat.zero_add]

/-- Every matrix arises from the right sequence of calls. -/
theorem fill_onto {α : Type} (X : DMat α) (hX : X.WF) (f0 : α) (P : α → Prop) (h0 : P f0) (hP : ∀ r ∈ X.rows, ∀ a ∈ r, P a) :
    ∃ f : Nat → α, (∀ k, P (f k)) ∧ fill X.nrows X.ncols f = X := by
  refine ⟨fun k => ((X.rows[k % X.nrows]?.getD [])[k / X.nrows]?).getD f0, fun k => ?_, ?_⟩
  · dsimp only
    cases h : (X.rows[k % X.nrows]?.getD [])[k / X.nrows]? with
    | none => exact h0
    | some a =>
      rw [Option.getD_some]
      cases h2 : X.rows[k % X.nrows]? with
      | none => rw [h2] at h; simp at h
      | some r =>
        rw [h2, Option.getD_some] at h
        exact hP r (List.mem_of_getElem? h2) a (List.mem_of_getElem? h)
  · obtain ⟨c, rows⟩ := X
    unfold fill DMat.nrows
    dsimp only
    congr 1
    refine List.ext_getElem (by simp) fun i h1 h2 => ?_
    rw [List.getElem_map, List.getElem_range]
    have hr : rows[i].length = c := hX _ (List.getElem_mem h2)
    refine List.ext_getElem (by simp [hr]) fun j h3 h4 => ?_
    rw [List.getElem_map, List.getElem_range, (call_entry h2).1, (call_entry h2).2, List.getElem?_eq_getElem h2, Option.getD_some,
      List.getElem?_eq_getElem h4, Option.getD_some]

end RandomMatLemmas

open RandomMatLemmas

/-- C159: `rand` with `low < high` gives matrices of the requested shape with all entries at least `low` and below `high`, and every such
matrix for some numbers of the generator; for `low = high` all entries are `low`, and for `low > high` the result is undefined. -/
theorem C159_rand (n m : Nat) (low high : ℝ) :
    (low < high → (∀ u : Nat → ℝ, (∀ k, 0 ≤ u k ∧ u k < 1) → ∃ X, rand u n m low high = .ok X ∧ X.WF ∧ X.nrows = n ∧ X.ncols = m ∧
        ∀ r ∈ X.rows, ∀ a ∈ r, low ≤ a ∧ a < high) ∧
      ∀ X : DMat ℝ, X.WF → X.nrows = n → X.ncols = m → (∀ r ∈ X.rows, ∀ a ∈ r, low ≤ a ∧ a < high) →
        ∃ u : Nat → ℝ, (∀ k, 0 ≤ u k ∧ u k < 1) ∧ rand u n m low high = .ok X) ∧
    (∀ u, rand u n m low low = .ok ⟨m, List.replicate n (List.replicate m low)⟩) ∧
    (high < low → ∀ u, rand u n m low high = .ub) := by
  refine ⟨fun h => ⟨fun u hu => ?_, fun X hX hn hm hr => ?_⟩, fun u => ?_, fun h u => ?_⟩
  · have hw := fill_wf n m fun k => u k * (high - low) + low
    refine ⟨_, if_pos h.le, hw.1, hw.2.1, hw.2.2, fun r hr a ha => ?_⟩
    obtain ⟨k, rfl⟩ := mem_fill hr ha
    have := hu k
    constructor <;> nlinarith
  · have hpos : 0 < high - low := by linarith
    obtain ⟨f, hf, hX'⟩ := fill_onto X hX low (fun a => low ≤ a ∧ a < high) ⟨le_refl _, h⟩ hr
    refine ⟨fun k => (f k - low) / (high - low), fun k => ⟨div_nonneg (by linarith [(hf k).1]) hpos.le, ?_⟩, ?_⟩
    · rw [div_lt_one hpos]
      linarith [(hf k).2]
    · unfold rand
      rw [if_pos h.le, ← hn, ← hm]
      conv_rhs => rw [← hX']
      congr 2
      funext k
      field_simp
      ring
  · unfold rand
    rw [if_pos (le_refl _)]
    congr 1
    unfold fill
    simp only [sub_self, mul_zero, zero_add]
    rw [List.map_const', List.length_range, List.map_const', List.length_range]
  · exact if_neg (not_le.mpr h)

/-- C159: the law of an entry of `rand`: if its number is uniform in `[0, 1)`, the probability of an entry below `t` is the part of the
interval below `t`. -/
theorem C159_rand_law (low high t : ℝ) (h : low < high) (ht : t ≤ high) :
    MeasureTheory.volume {v : ℝ | (0 ≤ v ∧ v < 1) ∧ ∃ X, rand (fun _ => v) 1 1 low high = .ok X ∧ ∃ a, X.rows = [[a]] ∧ a < t} =
      ENNReal.ofReal ((t - low) / (high - low)) := by
  have hpos : 0 < high - low := by linarith
  have hset : {v : ℝ | (0 ≤ v ∧ v < 1) ∧ ∃ X, rand (fun _ => v) 1 1 low high = .ok X ∧ ∃ a, X.rows = [[a]] ∧ a < t} =
      Set.Ico 0 ((t - low) / (high - low)) := by
    ext v
    have hr : rand (fun _ => v) 1 1 low high = .ok ⟨1, [[v * (high - low) + low]]⟩ := by
      unfold rand
      rw [if_pos h.le]
      rfl
    have hle : (t - low) / (high - low) ≤ 1 := (div_le_one hpos).mpr (by linarith)
    simp only [Set.mem_ofPred_eq, Set.mem_Ico, hr]
    constructor
    · rintro ⟨⟨a0, _⟩, X, hX, a, ha, hat⟩
      cases hX
      simp only [List.cons.injEq, and_true] at ha
      refine ⟨a0, ?_⟩
      rw [lt_div_iff₀ hpos]
      linarith
    · rintro ⟨a0, a1⟩
      refine ⟨⟨a0, lt_of_lt_of_le a1 hle⟩, _, rfl, _, rfl, ?_⟩
      rw [lt_div_iff₀ hpos] at a1
      linarith
  rw [hset, Real.volume_Ico, sub_zero]

/-- C159: `randn` has the first argument as mean and the second as standard deviation: its matrix is the standard one scaled and shifted. A
standard deviation that is not positive is undefined. -/
theorem C159_randn (z : Nat → ℝ) (n m : Nat) (mean sd : ℝ) :
    (0 < sd → ∃ Z, randn z n m 0 1 = .ok Z ∧ Z.WF ∧ Z.nrows = n ∧ Z.ncols = m ∧
      randn z n m mean sd = .ok ⟨m, Z.rows.map fun r => r.map fun a => mean + sd * a⟩) ∧
    (sd ≤ 0 → randn z n m mean sd = .ub) := by
  refine ⟨fun h => ?_, fun h => if_neg (not_lt.mpr h)⟩
  have hw := fill_wf n m fun k => z k * 1 + 0
  refine ⟨_, if_pos one_pos, hw.1, hw.2.1, hw.2.2, ?_⟩
  unfold randn
  rw [if_pos h]
  unfold fill
  simp only [List.map_map, Function.comp_def]
  congr 2
  refine List.map_congr_left fun i _ => List.map_congr_left fun j _ => ?_
  ring

/-- C159: `randint` includes both ends: the entries are between `low` and `high`, every such matrix is possible, and of the numbers a
generator can give (any whole number of rounds through the range) equally many lead to each value. For `low > high` it is undefined. -/
theorem C159_randint (n m : Nat) (low high : Int) :
    (low ≤ high → (∀ d : Nat → Nat, ∃ X, randint d n m low high = .ok X ∧ X.WF ∧ X.nrows = n ∧ X.ncols = m ∧
        ∀ r ∈ X.rows, ∀ a ∈ r, low ≤ a ∧ a ≤ high) ∧
      (∀ X : DMat Int, X.WF → X.nrows = n → X.ncols = m → (∀ r ∈ X.rows, ∀ a ∈ r, low ≤ a ∧ a ≤ high) →
        ∃ d : Nat → Nat, randint d n m low high = .ok X) ∧
      ∀ (rounds : Nat) (v : Int), low ≤ v → v ≤ high →
        ((List.range (rounds * (high - low + 1).toNat)).filter fun k =>
          decide (randint (fun _ => k) 1 1 low high = .ok ⟨1, [[v]]⟩)).length = rounds) ∧
    (high < low → ∀ d, randint d n m low high = .ub) := by
  refine ⟨fun h => ⟨fun d => ?_, fun X hX hn hm hr => ?_, fun rounds v hv1 hv2 => ?_⟩, fun h d => if_neg (not_le.mpr h)⟩
  · have hw := fill_wf n m fun k => low + (d k % (high - low + 1).toNat : Nat)
    refine ⟨_, if_pos h, hw.1, hw.2.1, hw.2.2, fun r hr a ha => ?_⟩
    obtain ⟨k, rfl⟩ := mem_fill hr ha
    have := Nat.mod_lt (d k) (show 0 < (high - low + 1).toNat by omega)
    omega
  · obtain ⟨f, hf, hX'⟩ := fill_onto X hX low (fun a => low ≤ a ∧ a ≤ high) ⟨le_refl _, h⟩ hr
    refine ⟨fun k => (f k - low).toNat, ?_⟩
    unfold randint
    rw [if_pos h, ← hn, ← hm]
    conv_rhs => rw [← hX']
    congr 2
    funext k
    have := hf k
    dsimp only
    rw [Nat.mod_eq_of_lt (by omega)]
    omega
  · have key : ∀ k, decide (randint (fun _ => k) 1 1 low high = .ok ⟨1, [[v]]⟩) = decide (k % (high - low + 1).toNat = (v - low).toNat) := by
      intro k
      have : randint (fun _ => k) 1 1 low high = .ok ⟨1, [[low + (k % (high - low + 1).toNat : Nat)]]⟩ := by
        unfold randint
        rw [if_pos h]
        rfl
      rw [this, decide_eq_decide]
      simp only [Res.ok.injEq, DMat.mk.injEq, List.cons.injEq, and_true, true_and]
      omega
    rw [List.filter_congr fun k _ => key k]
    have hw : (v - low).toNat < (high - low + 1).toNat := by omega
    generalize (high - low + 1).toNat = w at hw
    generalize (v - low).toNat = e at hw
    induction rounds with
    | zero => simp
    | succ r ih =>
      rw [Nat.succ_mul, List.range_add, List.filter_append, List.length_append, ih, List.filter_map, List.length_map]
      have : (List.range w).filter ((fun k => decide (k % w = e)) ∘ fun x => r * w + x) = [e] := by
        have h2 : (List.range w).filter ((fun k => decide (k % w = e)) ∘ fun x => r * w + x) = (List.range w).filter fun x => decide (x = e) := by
          refine List.filter_congr fun x hx => ?_
          rw [List.mem_range] at hx
          simp only [Function.comp_apply]
          rw [(call_entry hx).1]
        rw [h2]
        have hnd := (List.nodup_range (n := w)).filter fun x => decide (x = e)
        refine (List.perm_singleton.mp ((List.perm_ext_iff_of_nodup hnd (List.nodup_singleton e)).mpr fun x => ?_))
        simp only [List.mem_filter, List.mem_range, decide_eq_true_eq, List.mem_singleton]
        constructor
        · exact fun h => h.2
        · rintro rfl
          exact ⟨hw, rfl⟩
      rw [this]
      rfl

/-- C159: k-means++ with at least one sample succeeds whatever the generator gives, and returns `k` rows of the data; without samples the
range of the first index wraps around and the row read is out of bounds for whatever the generator gives. -/
theorem C159_kmeans (d : Nat → Nat) (u : Nat → Nat → ℝ) (hu : ∀ c i, 0 ≤ u c i ∧ u c i < 1) (k : Nat) (hk : 1 ≤ k) (X : DMat ℝ) (hX : X.WF) :
    (X.rows ≠ [] → ∃ C, RandomMat.plusPlus d u k X = .ok C ∧ C.length = k ∧ ∀ c ∈ C, c ∈ X.rows) ∧
    (X.rows = [] → RandomMat.plusPlus d u k X = .ub) := by
  have hfirst : ∀ n : Nat, randint d 1 1 0 n = .ok ⟨1, [[((d 0 % (n + 1) : Nat) : Int)]]⟩ := by
    intro n
    unfold randint
    rw [if_pos (by omega)]
    have : ((n : Int) - 0 + 1).toNat = n + 1 := by omega
    rw [this]
    simp [fill]
  have hvec : ∀ c, trialVector (u c) k = .ok ((List.range (KMeans.numTrials k)).map (u c)) := by
    intro c
    unfold trialVector rand
    rw [if_pos zero_le_one, Res.bind_ok]
    congr 1
    unfold DMat.col fill
    simp [List.filterMap_map, Function.comp_def]
  have hdraws : mapRes (fun c => trialVector (u c) k) (List.range (k - 1)) = .ok (KMeans.drawsFor k u) := by
    unfold KMeans.drawsFor
    generalize List.range (k - 1) = l
    induction l with
    | nil => rfl
    | cons c l ih => rw [mapRes, hvec, ih, Res.bind_ok, Res.bind_ok, List.map_cons]
  constructor
  · intro hne
    have hpos : 0 < X.nrows := List.length_pos_of_ne_nil hne
    have hp : pred64 X.nrows = X.nrows - 1 := if_neg (by omega)
    have hlt : d 0 % (X.nrows - 1 + 1) < X.rows.length := by
      have := Nat.mod_lt (d 0) (show 0 < X.nrows - 1 + 1 by omega)
      have e : X.nrows = X.rows.length := rfl
      omega
    obtain ⟨D, h1, h2, h3, -⟩ := C41_plusplus X hX _ _ (List.getElem?_eq_getElem hlt) (KMeans.drawsFor k u) (by
      intro rs hrs
      obtain ⟨c, _, rfl⟩ := List.mem_map.mp hrs
      refine ⟨?_, fun r hr => ?_⟩
      · have : 0 < KMeans.numTrials k := by unfold KMeans.numTrials; omega
        intro h
        have := congrArg List.length h
        simp at this
        omega
      · obtain ⟨i, _, rfl⟩ := List.mem_map.mp hr
        exact (hu c i).2.le)
    refine ⟨_, ?_, ?_, h3⟩
    · unfold RandomMat.plusPlus
      rw [hp, hfirst, Res.bind_ok]
      simp only [List.flatten_cons, List.flatten_nil, List.append_nil, readAt, List.getElem?_cons_zero, Res.bind_ok, hdraws, Int.toNat_natCast,
        h1]
    · rw [List.length_cons, h2]
      simp [KMeans.drawsFor]
      omega
  · intro he
    unfold RandomMat.plusPlus
    have hn : X.nrows = 0 := by unfold DMat.nrows; rw [he]; rfl
    rw [hn, hfirst, Res.bind_ok]
    simp only [List.flatten_cons, List.flatten_nil, List.append_nil, readAt, List.getElem?_cons_zero, Res.bind_ok, hdraws]
    simp [KMeans.plusPlus, he, readAt]

/-- Beside C159: a two by two matrix of integers from 3 to 5, filled column by column; the upper end occurs. -/
example : randint (fun k => k) 2 2 3 5 = .ok ⟨2, [[3, 5], [4, 3]]⟩ ∧ randint (fun k => k) 2 2 5 3 = .ub := by decide

/-- Beside C159_rand: an admissible sequence and a matrix of the kind. -/
example : (∀ k : Nat, (0 : ℝ) ≤ 1 / 2 ∧ (1 : ℝ) / 2 < 1) ∧ rand (fun _ => 1 / 2) 1 2 (-1) 1 = .ok ⟨2, [[0, 0]]⟩ := by
  refine ⟨fun _ => by norm_num, ?_⟩
  unfold rand
  rw [if_pos (by norm_num)]
  norm_num [fill, List.range_succ]

end OpenML
