import Verif.Lemmas.Rounding
import Verif.Lemmas.Stats
import Verif.Lemmas.KMeans
import Verif.Spec.KMeans
import Verif.Spec.Stats
import Mathlib.Data.Int.Log
import Mathlib.Algebra.Order.Round
import Mathlib.Tactic.NormNum

/-! # Properties of computations with rounding -/

namespace OpenML.Rounding

/-- Exact arithmetic. -/
def exact : Arith := ⟨id, 0, le_rfl, one_pos, fun x => by simp⟩

theorem two_zpow_pos (e : ℤ) : (0 : ℝ) < 2 ^ e := zpow_pos two_pos e

/-- The arithmetic with `p` binary digits, rounding to nearest (ties upwards), without limits for the exponent; `p = 53` is `double`,
`p = 24` is `float`. -/
noncomputable def binary (p : Nat) (hp : 0 < p) : Arith where
  rnd x := (round (x / 2 ^ (Int.log 2 |x| + 1 - p)) : ℝ) * 2 ^ (Int.log 2 |x| + 1 - p)
  u := 2⁻¹ ^ p
  nonneg := by positivity
  lt_one := pow_lt_one₀ (by norm_num) (by norm_num) (by omega)
  err x := by
    by_cases hx : x = 0
    · subst hx
      simp
    have hpos := two_zpow_pos (Int.log 2 |x| + 1 - p)
    set e := Int.log 2 |x| + 1 - p with he
    have h1 : (round (x / 2 ^ e) : ℝ) * 2 ^ e - x = -((x / 2 ^ e - round (x / 2 ^ e)) * 2 ^ e) := by
      field_simp
      ring
    rw [h1, abs_neg, abs_mul, abs_of_pos hpos]
    have h2 := abs_sub_round (x / 2 ^ e)
    have h3 := Int.zpow_log_le_self (b := 2) (r := |x|) (by norm_num) (abs_pos.mpr hx)
    have h4 : (2 : ℝ) ^ e = 2 * 2⁻¹ ^ p * 2 ^ Int.log 2 |x| := by
      rw [he, zpow_sub₀ two_ne_zero, zpow_add_one₀ two_ne_zero, zpow_natCast, inv_pow, div_eq_mul_inv]
      ring
    calc |x / 2 ^ e - round (x / 2 ^ e)| * 2 ^ e ≤ 1 / 2 * 2 ^ e := mul_le_mul_of_nonneg_right h2 hpos.le
      _ = 2⁻¹ ^ p * 2 ^ Int.log 2 |x| := by
        rw [h4]
        ring
      _ ≤ 2⁻¹ ^ p * |x| := mul_le_mul_of_nonneg_left (by exact_mod_cast h3) (by positivity)

theorem binary_eval {p : Nat} {hp : 0 < p} {x : ℝ} (e m : ℤ) (h1 : (2 : ℝ) ^ (e + p - 1) ≤ |x|) (h2 : |x| < 2 ^ (e + p))
    (h3 : ((m : ℝ) - 1 / 2) * 2 ^ e ≤ x) (h4 : x < (m + 1 / 2) * 2 ^ e) : (binary p hp).rnd x = m * 2 ^ e := by
  have hx : 0 < |x| := lt_of_lt_of_le (two_zpow_pos _) h1
  have hlog : Int.log 2 |x| = e + p - 1 := by
    refine le_antisymm ?_ ?_
    · have := (Int.lt_zpow_iff_log_lt (b := 2) (by norm_num) hx).mp (by exact_mod_cast h2)
      omega
    · exact (Int.zpow_le_iff_le_log (b := 2) (by norm_num) hx).mp (by exact_mod_cast h1)
  have he : Int.log 2 |x| + 1 - p = e := by omega
  show (round (x / 2 ^ (Int.log 2 |x| + 1 - p)) : ℝ) * 2 ^ (Int.log 2 |x| + 1 - p) = _
  rw [he]
  congr 2
  have hpos := two_zpow_pos e
  rw [round_eq, Int.floor_eq_iff]
  constructor
  · have := (le_div_iff₀ hpos).mpr h3
    linarith
  · have := (div_lt_iff₀ hpos).mpr h4
    linarith

theorem pick_some (vs : List ℝ) : ∀ (j : Nat) (b : ℝ) (arg : Nat),
    (pickFrom vs j (some b) arg = arg ∧ ∀ v ∈ vs, b ≤ v) ∨
    ∃ k v, vs[k]? = some v ∧ pickFrom vs j (some b) arg = j + k ∧ v < b ∧ (∀ w ∈ vs, v ≤ w) ∧ ∀ i < k, ∀ w, vs[i]? = some w → v < w := by
  induction vs with
  | nil => exact fun j b arg => Or.inl ⟨rfl, by simp⟩
  | cons a vs ih =>
    intro j b arg
    by_cases hab : a < b
    · have e : pickFrom (a :: vs) j (some b) arg = pickFrom vs (j + 1) (some a) j := by
        rw [pickFrom, if_pos (by simpa using hab)]
      right
      rcases ih (j + 1) a j with ⟨h1, h2⟩ | ⟨k, v, h1, h2, h3, h4, h5⟩
      · refine ⟨0, a, rfl, by rw [e, h1]; rfl, hab, ?_, fun i hi => by omega⟩
        intro w hw
        rcases List.mem_cons.mp hw with rfl | hw
        · exact le_rfl
        · exact h2 w hw
      · refine ⟨k + 1, v, by simpa using h1, by rw [e, h2]; omega, h3.trans hab, ?_, ?_⟩
        · intro w hw
          rcases List.mem_cons.mp hw with rfl | hw
          · exact h3.le
          · exact h4 w hw
        · intro i hi w hw
          cases i with
          | zero =>
            obtain rfl : a = w := by simpa using hw
            exact h3
          | succ i => exact h5 i (by omega) w (by simpa using hw)
    · have e : pickFrom (a :: vs) j (some b) arg = pickFrom vs (j + 1) (some b) arg := by
        rw [pickFrom, if_neg (by simpa using hab)]
      push Not at hab
      rcases ih (j + 1) b arg with ⟨h1, h2⟩ | ⟨k, v, h1, h2, h3, h4, h5⟩
      · left
        refine ⟨by rw [e, h1], fun v hv => ?_⟩
        rcases List.mem_cons.mp hv with rfl | hv
        · exact hab
        · exact h2 v hv
      · right
        refine ⟨k + 1, v, by simpa using h1, by rw [e, h2]; omega, h3, ?_, ?_⟩
        · intro w hw
          rcases List.mem_cons.mp hw with rfl | hw
          · exact h3.le.trans hab
          · exact h4 w hw
        · intro i hi w hw
          cases i with
          | zero =>
            obtain rfl : a = w := by simpa using hw
            exact h3.trans_le hab
          | succ i => exact h5 i (by omega) w (by simpa using hw)

theorem pick_spec {vs : List ℝ} (hne : vs ≠ []) : ∃ v, vs[pickFrom vs 0 none 0]? = some v ∧ (∀ w ∈ vs, v ≤ w) ∧
    ∀ i < pickFrom vs 0 none 0, ∀ w, vs[i]? = some w → v < w := by
  match vs, hne with
  | a :: vs, _ =>
    have e : pickFrom (a :: vs) 0 none 0 = pickFrom vs 1 (some a) 0 := by
      rw [pickFrom]
      simp
    rw [e]
    rcases pick_some vs 1 a 0 with ⟨h1, h2⟩ | ⟨k, v, h1, h2, h3, h4, h5⟩
    · refine ⟨a, by rw [h1]; rfl, ?_, fun i hi => by omega⟩
      intro w hw
      rcases List.mem_cons.mp hw with rfl | hw
      · exact le_rfl
      · exact h2 w hw
    · rw [h2]
      refine ⟨v, by rw [Nat.add_comm]; simpa using h1, ?_, ?_⟩
      · intro w hw
        rcases List.mem_cons.mp hw with rfl | hw
        · exact h3.le
        · exact h4 w hw
      · intro i hi w hw
        cases i with
        | zero =>
          obtain rfl : a = w := by simpa using hw
          exact h3
        | succ i => exact h5 i (by omega) w (by simpa using hw)

open Spec

/-- The computed distance, squared. -/
theorem dist_rel {A : Arith} {x c : List ℝ} {v : ℝ} (h : Dist A x c v) : 0 ≤ v ∧ Rel A (x.length + 4) (v ^ 2) (sqDist x c) := by
  obtain ⟨hlen, ts, s, hts, hs, rfl⟩ := h
  have hl : ts.length = x.length := by rw [← hts.length_eq, List.length_zip, hlen, Nat.min_self]
  have hrel : Rel A (x.length + 2) s (sqDist x c) := by
    have := summed_rel (k := 3) hs (x := List.zipWith (fun a b => (a - b) ^ 2) x c) (by
      clear hs hl
      induction x generalizing c ts with
      | nil => simpa using hts
      | cons a x ih =>
        cases c with
        | nil => simp at hlen
        | cons b c =>
          cases hts with
          | cons h1 h2 => exact List.Forall₂.cons (square_rel h1) (ih (by simpa using hlen) _ h2))
    rw [hl] at this
    rcases Nat.eq_zero_or_pos x.length with h0 | h0
    · have hx0 : x = [] := List.eq_nil_of_length_eq_zero h0
      have hs0 : s = 0 := by
        have h1 := this.2.2
        have h2 := this.2.1
        subst hx0
        simp at h1 h2
        linarith
      subst hx0
      rw [hs0]
      exact ⟨le_rfl, by simp [sqDist], by simp [sqDist]⟩
    · exact this.mono (by omega)
  have hs0 := hrel.nonneg
  obtain ⟨h1, h2⟩ := rnd_bounds A (Real.sqrt_nonneg s)
  have hu : 0 ≤ 1 - A.u := by linarith [A.lt_one]
  have hu' : 0 ≤ 1 + A.u := by linarith [A.nonneg]
  have hv : 0 ≤ A.rnd (Real.sqrt s) := (mul_nonneg hu (Real.sqrt_nonneg s)).trans h1
  refine ⟨hv, hrel.1, ?_, ?_⟩
  · have h3 := pow_le_pow_left₀ (mul_nonneg hu (Real.sqrt_nonneg s)) h1 2
    rw [mul_pow, Real.sq_sqrt hs0] at h3
    have h4 := mul_le_mul_of_nonneg_left hrel.2.1 (pow_nonneg hu 2)
    have e : (1 - A.u) ^ (x.length + 4) = (1 - A.u) ^ 2 * (1 - A.u) ^ (x.length + 2) := by
      rw [← pow_add]
      congr 1
      omega
    rw [e, mul_assoc]
    exact h4.trans h3
  · have h3 := pow_le_pow_left₀ hv h2 2
    rw [mul_pow, Real.sq_sqrt hs0] at h3
    have h4 := mul_le_mul_of_nonneg_left hrel.2.2 (pow_nonneg hu' 2)
    have e : (1 + A.u) ^ (x.length + 4) = (1 + A.u) ^ 2 * (1 + A.u) ^ (x.length + 2) := by
      rw [← pow_add]
      congr 1
      omega
    rw [e, mul_assoc]
    exact h3.trans h4

theorem dot_approx' {A : Arith} {x w : List ℝ} {s : ℝ} (h : Dot A x w s) :
    Approx A x.length s (List.zipWith (· * ·) x w).sum (List.zipWith (fun a b => |a * b|) x w).sum := by
  have h1 := dot_approx h
  rcases Nat.eq_zero_or_pos x.length with h0 | h0
  · have hx0 : x = [] := List.eq_nil_of_length_eq_zero h0
    subst hx0
    have h2 := h1.2
    simp at h2
    simp [Approx, h2]
  · rwa [Nat.sub_add_cancel h0] at h1

end OpenML.Rounding

namespace OpenML

open Rounding Spec

/-- C131: a sum, added up in any order, has an error of at most `n - 1` roundings of the sum of the absolute values. -/
theorem C131_sum (A : Arith) (l : List ℝ) (s : ℝ) (h : Summed A l s) :
    |s - l.sum| ≤ ((1 + A.u) ^ (l.length - 1) - 1) * (l.map fun x => |x|).sum := (summed_exact_terms h).2

/-- C131: the mean. -/
theorem C131_mean (A : Arith) (l : List ℝ) (hl : l ≠ []) (m : ℝ) (h : Mean A l m) :
    |m - average l| ≤ ((1 + A.u) ^ l.length - 1) * average (l.map fun x => |x|) := by
  have := (mean_approx hl h).2
  simpa [average] using this

/-- C131: predictions of linear models; the label of a linear classifier is the one of exact arithmetic unless the score is small. -/
theorem C131_predict (A : Arith) (w : List ℝ) (b : ℝ) (x : List ℝ) (v : ℝ) (h : Prediction A w b x v) :
    let score := (List.zipWith (· * ·) x w).sum + b
    let bound := ((1 + A.u) ^ (x.length + 1) - 1) * ((List.zipWith (fun a b => |a * b|) x w).sum + |b|)
    |v - score| ≤ bound ∧ (bound < |score| → (0 < v ↔ 0 < score)) := by
  intro score bound
  obtain ⟨s, hs, rfl⟩ := h
  have h1 := ((dot_approx' hs).add ((Approx.exact A b).mono (Nat.zero_le _) le_rfl)).rnd
  have h2 : |A.rnd (s + b) - score| ≤ bound := h1.2
  refine ⟨h2, fun hb => ?_⟩
  rw [abs_le] at h2
  constructor
  · intro hv
    by_contra hneg
    rw [abs_of_nonpos (not_lt.mp hneg)] at hb
    linarith [h2.2]
  · intro hpos
    rw [abs_of_pos hpos] at hb
    linarith [h2.1]

/-- C131: the variance is computed as a difference of means; its error is bounded by the mean of the squares, not by the variance. -/
theorem C131_var (A : Arith) (l : List ℝ) (hl : l ≠ []) (v : ℝ) (h : Var A l v) :
    |v - meanSquaredDeviation l| ≤ 2 * ((1 + A.u) ^ (2 * l.length + 2) - 1) * average (l.map fun a => a ^ 2) := by
  obtain ⟨sq, m, q, mm, h1, h2, h3, h4, rfl⟩ := h
  have hq := squares_approx hl h1 h3
  have hm := mean_approx hl h2
  set Q := (l.map fun a => a * a).sum / l.length with hQ
  have hmm : Approx A (2 * l.length + 1) mm ((l.sum / l.length) * (l.sum / l.length)) Q := by
    have h5 := hm.mul hm
    have h6 := mean_abs_sq_le l
    rw [_root_.sq] at h6
    have h7 := h5.mono (l := 2 * l.length) (by omega) h6
    rcases h4 with rfl | rfl
    · exact h7.rnd
    · exact h7.mono (by omega) le_rfl
  have hf := ((hq.mono (l := 2 * l.length + 1) (by omega) le_rfl).sub hmm).rnd
  have e : meanSquaredDeviation l = Q - (l.sum / l.length) * (l.sum / l.length) := by
    have := Stats.varLine_eq hl
    unfold Stats.varLine Stats.meanLine at this
    simp only [if_neg hl, List.map_eq_nil_iff, List.length_map, Option.bind_eq_bind, Option.bind_some, Option.some.injEq] at this
    rw [← this]
  have e2 : average (l.map fun a => a ^ 2) = Q := by
    rw [hQ, average, List.length_map]
    congr 2
    exact List.map_congr_left fun a _ => _root_.sq a
  rw [e, e2]
  refine hf.2.trans (le_of_eq ?_)
  ring

/-- C131: the computed distance of a sample and a centroid has a small relative error, and is zero exactly for equal rows. -/
theorem C131_distance (A : Arith) (x c : List ℝ) (v : ℝ) (h : Dist A x c v) :
    0 ≤ v ∧ (1 - A.u) ^ (x.length + 4) * sqDist x c ≤ v ^ 2 ∧ v ^ 2 ≤ (1 + A.u) ^ (x.length + 4) * sqDist x c ∧ (v = 0 ↔ x = c) := by
  obtain ⟨h0, h1, h2, h3⟩ := dist_rel h
  have hpos : 0 < (1 - A.u) ^ (x.length + 4) := pow_pos (by linarith [A.lt_one]) _
  refine ⟨h0, h2, h3, ?_⟩
  have hz : ∀ (x c : List ℝ), x.length = c.length → (sqDist x c = 0 ↔ x = c) := by
    intro x
    induction x with
    | nil =>
      intro c hc
      have : c = [] := List.eq_nil_of_length_eq_zero hc.symm
      subst this
      simp [sqDist]
    | cons a x ih =>
      intro c hc
      cases c with
      | nil => simp at hc
      | cons b c =>
        have hn : 0 ≤ sqDist x c := List.sum_nonneg fun t ht => by
          rw [List.zipWith_eq_zipWith_take_min] at ht
          obtain ⟨i, hi, rfl⟩ := List.getElem_of_mem ht
          simp only [List.getElem_zipWith]
          positivity
        have e : sqDist (a :: x) (b :: c) = (a - b) ^ 2 + sqDist x c := by simp [sqDist]
        rw [e, List.cons.injEq, ← ih c (by simpa using hc)]
        constructor
        · intro h
          have h5 := sq_nonneg (a - b)
          exact ⟨by have : (a - b) ^ 2 = 0 := by linarith
                    exact sub_eq_zero.mp (pow_eq_zero_iff (two_ne_zero) |>.mp this), by linarith⟩
        · rintro ⟨rfl, h⟩
          simp [h]
  rw [← hz x c h.1]
  constructor
  · rintro rfl
    have : (1 - A.u) ^ (x.length + 4) * sqDist x c ≤ 0 := by simpa using h2
    exact le_antisymm (by_contra fun hn => absurd (mul_pos hpos (not_le.mp hn)) (not_lt.mpr this)) h1
  · intro hs
    rw [hs, mul_zero] at h3
    exact pow_eq_zero_iff (two_ne_zero) |>.mp (le_antisymm h3 (sq_nonneg v))

/-- C131: whatever the order of the additions, the centroid chosen for a sample is a nearest one up to a factor close to one; it is
the first nearest one if the others are farther by this factor, and a centroid equal to the sample if there is one. -/
theorem C131_nearest (A : Arith) (C : List (List ℝ)) (hC : C ≠ []) (x : List ℝ) (j : Nat) (h : Nearest A C x j) :
    ∃ c, C[j]? = some c ∧
      (∀ c' ∈ C, (1 - A.u) ^ (x.length + 4) * sqDist x c ≤ (1 + A.u) ^ (x.length + 4) * sqDist x c') ∧
      (∀ (i : Nat) (a : List ℝ), C[i]? = some a → (∀ (i' : Nat) (c' : List ℝ), C[i']? = some c' → i' ≠ i →
        (1 + A.u) ^ (x.length + 4) * sqDist x a < (1 - A.u) ^ (x.length + 4) * sqDist x c') → j = i) ∧
      (x ∈ C → c = x ∧ ∀ i < j, C[i]? ≠ some x) := by
  obtain ⟨vs, hvs, rfl⟩ := h
  have hlen := hvs.length_eq
  have hne : vs ≠ [] := fun h0 => hC (by rw [h0] at hvs; exact List.forall₂_nil_right_iff.mp hvs)
  obtain ⟨v, hv, hmin, hfirst⟩ := pick_spec hne
  set j := pickFrom vs 0 none 0 with hj
  have hget : ∀ (i : Nat) (c : List ℝ), C[i]? = some c → ∃ w, vs[i]? = some w ∧ Dist A x c w := by
    intro i c hc
    obtain ⟨hi, rfl⟩ := List.getElem?_eq_some_iff.mp hc
    exact ⟨vs[i], List.getElem?_eq_getElem (by omega), List.Forall₂.get hvs hi (by omega)⟩
  have hjl : j < C.length := by
    obtain ⟨hi, _⟩ := List.getElem?_eq_some_iff.mp hv
    omega
  obtain ⟨w, hw, hdist⟩ := hget j C[j] (List.getElem?_eq_getElem hjl)
  obtain rfl : v = w := Option.some.inj (hv.symm.trans hw)
  obtain ⟨b0, b1, b2, b3⟩ := C131_distance A x _ v hdist
  refine ⟨C[j], List.getElem?_eq_getElem hjl, ?_, ?_, ?_⟩
  · intro c' hc'
    obtain ⟨i, hi, rfl⟩ := List.getElem_of_mem hc'
    obtain ⟨w, hw, hd⟩ := hget i C[i] (List.getElem?_eq_getElem hi)
    obtain ⟨d0, d1, d2, d3⟩ := C131_distance A x _ w hd
    have := pow_le_pow_left₀ b0 (hmin w (List.mem_of_getElem? hw)) 2
    linarith
  · intro i a ha hsep
    by_contra hne'
    have h1 := hsep j C[j] (List.getElem?_eq_getElem hjl) hne'
    obtain ⟨w, hw, hd⟩ := hget i a ha
    obtain ⟨d0, d1, d2, d3⟩ := C131_distance A x _ w hd
    have := pow_le_pow_left₀ b0 (hmin w (List.mem_of_getElem? hw)) 2
    linarith
  · intro hx
    have hzero : ∀ i : Nat, C[i]? = some x → vs[i]? = some 0 := by
      intro i hi
      obtain ⟨w, hw, hd⟩ := hget i x hi
      rw [hw, (C131_distance A x x w hd).2.2.2.mpr rfl]
    obtain ⟨i, hi, he⟩ := List.getElem_of_mem hx
    have h0 := hzero i (by rw [List.getElem?_eq_getElem hi, he])
    have hv0 : v = 0 := le_antisymm (hmin 0 (List.mem_of_getElem? h0)) b0
    refine ⟨(b3.mp hv0).symm, fun i' hi' he' => ?_⟩
    have := hfirst i' hi' 0 (hzero i' he')
    linarith

/-- C131: every computation has a result, and the results in exact arithmetic are those of the models over the real numbers. -/
theorem C131_exact :
    (∀ (A : Arith) (l : List ℝ), ∃ v, Var A l v) ∧
    (∀ (A : Arith) (w : List ℝ) (b : ℝ) (x : List ℝ), x.length = w.length → ∃ v, Prediction A w b x v) ∧
    (∀ (A : Arith) (C : List (List ℝ)) (x : List ℝ), (∀ c ∈ C, c.length = x.length) → ∃ j, Nearest A C x j) ∧
    (∀ (l : List ℝ) (v : ℝ), l ≠ [] → (Var exact l v ↔ Stats.varLine l = some v)) ∧
    (∀ (C : List (List ℝ)) (x : List ℝ) (j : Nat), C ≠ [] → (∀ c ∈ C, c.length = x.length) →
      (Nearest exact C x j ↔ KMeans.nearest C x = .ok j)) := by
  have hsum : ∀ (A : Arith) (l : List ℝ), ∃ s, Summed A l s := by
    intro A l
    induction l with
    | nil => exact ⟨0, .nil⟩
    | cons a l ih =>
      obtain ⟨s, hs⟩ := ih
      cases l with
      | nil => exact ⟨a, .single a⟩
      | cons b l => exact ⟨_, .add (.single a) hs (by simp) (by simp) (List.Perm.refl _)⟩
  have hmean : ∀ (A : Arith) (l : List ℝ), ∃ m, Mean A l m := fun A l => by
    obtain ⟨s, hs⟩ := hsum A l
    exact ⟨_, s, hs, rfl⟩
  have hterms : ∀ {β : Type} (A : Arith) (f g : β → ℝ) (l : List β), ∃ ts, List.Forall₂ (fun e t => Term A (f e) (g e) t) l ts := by
    intro β A f g l
    exact ⟨l.map fun e => f e * g e, by
      induction l with
      | nil => exact .nil
      | cons a l ih => exact .cons (Or.inr rfl) ih⟩
  have hvar : ∀ (A : Arith) (l : List ℝ), ∃ v, Var A l v := by
    intro A l
    obtain ⟨sq, hsq⟩ := hterms A id id l
    obtain ⟨m, hm⟩ := hmean A l
    obtain ⟨q, hq⟩ := hmean A sq
    exact ⟨_, sq, m, q, m * m, hsq, hm, hq, Or.inr rfl, rfl⟩
  have hnear : ∀ (A : Arith) (C : List (List ℝ)) (x : List ℝ), (∀ c ∈ C, c.length = x.length) → ∃ j, Nearest A C x j := by
    intro A C x hl
    have : ∃ vs, List.Forall₂ (fun c v => Dist A x c v) C vs := by
      induction C with
      | nil => exact ⟨[], .nil⟩
      | cons c C ih =>
        obtain ⟨vs, hvs⟩ := ih fun c hc => hl c (by simp [hc])
        obtain ⟨ts, hts⟩ := hterms A (fun e : ℝ × ℝ => A.rnd (e.1 - e.2)) (fun e => A.rnd (e.1 - e.2)) (x.zip c)
        obtain ⟨s, hs⟩ := hsum A ts
        exact ⟨_ :: vs, .cons ⟨(hl c (by simp)).symm, ts, s, hts, hs, rfl⟩ hvs⟩
    obtain ⟨vs, hvs⟩ := this
    exact ⟨_, vs, hvs, rfl⟩
  refine ⟨hvar, ?_, hnear, ?_, ?_⟩
  · intro A w b x hl
    obtain ⟨ts, hts⟩ := hterms A Prod.fst Prod.snd (x.zip w)
    obtain ⟨s, hs⟩ := hsum A ts
    exact ⟨_, s, ⟨hl, ts, hts, hs⟩, rfl⟩
  · intro l v hl
    have huniq : ∀ v, Var exact l v → v = meanSquaredDeviation l := by
      intro v hv
      have := C131_var exact l hl v hv
      have h0 : exact.u = 0 := rfl
      rw [h0] at this
      simpa [sub_eq_zero] using this
    rw [Stats.varLine_eq hl, Option.some.injEq]
    constructor
    · exact fun hv => (huniq v hv).symm
    · rintro rfl
      obtain ⟨v, hv⟩ := hvar exact l
      rwa [← huniq v hv]
  · intro C x j hC hl
    have huniq : ∀ j, Nearest exact C x j → KMeans.nearest C x = .ok j := by
      rintro j ⟨vs, hvs, rfl⟩
      obtain ⟨j', h1, b, h2, h3⟩ := KMeans.nearest_spec C x hC hl
      have hlen := hvs.length_eq
      have hne : vs ≠ [] := fun h0 => hC (by rw [h0] at hvs; exact List.forall₂_nil_right_iff.mp hvs)
      obtain ⟨v, hv, hmin, hfirst⟩ := pick_spec hne
      have hget : ∀ (i : Nat) (w : ℝ), vs[i]? = some w → 0 ≤ w ∧ (C.map (sqDist x))[i]? = some (w ^ 2) := by
        intro i w hw
        obtain ⟨hi, rfl⟩ := List.getElem?_eq_some_iff.mp hw
        have hd : Dist exact x C[i] vs[i] := List.Forall₂.get hvs (by omega) hi
        obtain ⟨d0, d1, d2, _⟩ := C131_distance exact x C[i] vs[i] hd
        have h0 : exact.u = 0 := rfl
        rw [h0] at d1 d2
        simp only [sub_zero, add_zero, one_pow, one_mul] at d1 d2
        refine ⟨d0, ?_⟩
        rw [List.getElem?_map, List.getElem?_eq_getElem (by omega : i < C.length), Option.map_some, le_antisymm d1 d2]
      obtain ⟨v0, hv2⟩ := hget _ _ hv
      rw [h1]
      congr 1
      have hj' : j' < vs.length := by
        obtain ⟨hi, _⟩ := List.getElem?_eq_some_iff.mp h2
        rw [List.length_map] at hi
        omega
      obtain ⟨w0, hw2⟩ := hget j' vs[j'] (List.getElem?_eq_getElem hj')
      obtain rfl : b = vs[j'] ^ 2 := Option.some.inj (h2.symm.trans hw2)
      have hle := hmin vs[j'] (List.getElem_mem hj')
      have hle' := (h3 _ _ hv2).1
      have heq : v ^ 2 = vs[j'] ^ 2 := le_antisymm (pow_le_pow_left₀ v0 hle 2) hle'
      refine le_antisymm ((h3 _ _ hv2).2 heq) ?_
      by_contra hlt
      have h5 := hfirst j' (not_le.mp hlt) _ (List.getElem?_eq_getElem hj')
      have := pow_lt_pow_left₀ h5 v0 two_ne_zero
      linarith
    refine ⟨huniq j, fun h => ?_⟩
    obtain ⟨j', hj'⟩ := hnear exact C x hl
    rw [huniq j' hj'] at h
    rwa [← Res.ok.inj h]

/-- C131: variances can be negative. In double precision the variance of three samples with the value 0.1 (the number next to it with
53 digits), added up one after the other, is `-2 ^ (-59)`. -/
theorem C131_negative_variance : Var (binary 53 (by norm_num))
    [3602879701896397 / 2 ^ 55, 3602879701896397 / 2 ^ 55, 3602879701896397 / 2 ^ 55] (-(1 / 2 ^ 59)) := by
  set A := binary 53 (by norm_num) with hA
  set x : ℝ := 3602879701896397 / 2 ^ 55 with hx
  have ev : ∀ (y : ℝ) (e m : ℤ), (2 : ℝ) ^ (e + 52) ≤ |y| → |y| < 2 ^ (e + 53) → ((m : ℝ) - 1 / 2) * 2 ^ e ≤ y → y < (m + 1 / 2) * 2 ^ e →
      A.rnd y = m * 2 ^ e := by
    intro y e m h1 h2 h3 h4
    refine binary_eval e m ?_ (by exact_mod_cast h2) h3 h4
    have : e + ((53 : ℕ) : ℤ) - 1 = e + 52 := by push_cast; ring
    rwa [this]
  have q1 : A.rnd (x * x) = 5764607523034236 / 2 ^ 59 := by
    rw [ev (x * x) (-59) 5764607523034236] <;> norm_num [hx, abs_of_pos, zpow_neg]
  have s2 : A.rnd (x + x) = 7205759403792794 / 2 ^ 55 := by
    rw [ev (x + x) (-55) 7205759403792794] <;> norm_num [hx, abs_of_pos, zpow_neg]
  have s3 : A.rnd (7205759403792794 / 2 ^ 55 + x) = 5404319552844596 / 2 ^ 54 := by
    rw [ev _ (-54) 5404319552844596] <;> norm_num [hx, abs_of_pos, zpow_neg]
  have q2 : A.rnd (5764607523034236 / 2 ^ 59 + 5764607523034236 / 2 ^ 59) = 5764607523034236 / 2 ^ 58 := by
    rw [ev _ (-58) 5764607523034236] <;> norm_num [abs_of_pos, zpow_neg]
  have q3 : A.rnd (5764607523034236 / 2 ^ 58 + 5764607523034236 / 2 ^ 59) = 8646911284551354 / 2 ^ 58 := by
    rw [ev _ (-58) 8646911284551354] <;> norm_num [abs_of_pos, zpow_neg]
  have m1 : A.rnd (5404319552844596 / 2 ^ 54 / (3 : ℕ)) = 7205759403792795 / 2 ^ 56 := by
    rw [ev _ (-56) 7205759403792795] <;> norm_num [abs_of_pos, zpow_neg]
  have m2 : A.rnd (8646911284551354 / 2 ^ 58 / (3 : ℕ)) = 5764607523034236 / 2 ^ 59 := by
    rw [ev _ (-59) 5764607523034236] <;> norm_num [abs_of_pos, zpow_neg]
  have m3 : A.rnd (7205759403792795 / 2 ^ 56 * (7205759403792795 / 2 ^ 56)) = 5764607523034237 / 2 ^ 59 := by
    rw [ev _ (-59) 5764607523034237] <;> norm_num [abs_of_pos, zpow_neg]
  have v1 : A.rnd (5764607523034236 / 2 ^ 59 - 5764607523034237 / 2 ^ 59) = -(1 / 2 ^ 59) := by
    rw [ev _ (-111) (-4503599627370496)] <;> norm_num [zpow_neg]
  have three : ∀ a b c : ℝ, A.rnd (a + a) = b → A.rnd (b + a) = c → Summed A [a, a, a] c := by
    rintro a b c rfl rfl
    exact .add (.add (.single a) (.single a) (by simp) (by simp) (List.Perm.refl _)) (.single a) (by simp) (by simp) (List.Perm.refl _)
  refine ⟨[5764607523034236 / 2 ^ 59, 5764607523034236 / 2 ^ 59, 5764607523034236 / 2 ^ 59], 7205759403792795 / 2 ^ 56,
    5764607523034236 / 2 ^ 59, 5764607523034237 / 2 ^ 59, ?_, ⟨_, three x _ _ s2 s3, m1.symm⟩, ⟨_, three _ _ _ q2 q3, m2.symm⟩,
    Or.inl m3.symm, v1.symm⟩
  exact .cons (Or.inl q1.symm) (.cons (Or.inl q1.symm) (.cons (Or.inl q1.symm) .nil))

/-- C131: the factors of the bounds are small: `k` roundings give at most `k u / (1 - k u)`, less than `2 k u` for `k u ≤ 1/2`. -/
theorem C131_factor (A : Arith) (k : Nat) (h : k * A.u < 1) :
    (1 + A.u) ^ k - 1 ≤ k * A.u / (1 - k * A.u) ∧ (k * A.u ≤ 1 / 2 → (1 + A.u) ^ k - 1 ≤ 2 * (k * A.u)) := by
  have h0 := A.nonneg
  have h1 := A.lt_one
  have hb : 1 - k * A.u ≤ (1 - A.u) ^ k := by
    have := one_add_mul_le_pow (a := -A.u) (by linarith) k
    simpa [sub_eq_add_neg, mul_comm] using this
  have hp : (1 + A.u) ^ k * (1 - k * A.u) ≤ 1 := by
    calc (1 + A.u) ^ k * (1 - k * A.u) ≤ (1 + A.u) ^ k * (1 - A.u) ^ k := mul_le_mul_of_nonneg_left hb (by positivity)
      _ = (1 - A.u ^ 2) ^ k := by
        rw [← mul_pow]
        ring
      _ ≤ 1 := pow_le_one₀ (by nlinarith) (by nlinarith)
  have hpos : 0 < 1 - k * A.u := by linarith
  have hku : 0 ≤ k * A.u := by positivity
  have hone := one_le_pow A k
  refine ⟨?_, fun hh => ?_⟩
  · rw [le_div_iff₀ hpos]
    nlinarith
  · nlinarith

/-- Beside C131: in double precision a sample that is a centroid is assigned to a centroid equal to it. -/
example : ∃ j, Nearest (binary 53 (by norm_num)) [[0, 0], [3, 4], [1, 1]] [3, 4] j ∧
    ∀ j, Nearest (binary 53 (by norm_num)) [[0, 0], [3, 4], [1, 1]] [3, 4] j → [[0, 0], [3, 4], [1, 1]][j]? = some [(3 : ℝ), 4] := by
  obtain ⟨j, hj⟩ := C131_exact.2.2.1 (binary 53 (by norm_num)) [[0, 0], [3, 4], [1, 1]] [3, 4] (by simp)
  refine ⟨j, hj, fun j hj => ?_⟩
  obtain ⟨c, hc, _, _, h⟩ := C131_nearest _ _ (by simp) _ j hj
  rw [hc, (h (by simp)).1]

/-- Beside C131: a prediction in double precision for weights 2, -1 and intercept 1, with the bound on its error. -/
example : ∃ v, Prediction (binary 53 (by norm_num)) [2, -1] 1 [3, 4] v ∧ |v - 3| ≤ 2 * (3 * 2⁻¹ ^ 53) * 11 := by
  obtain ⟨v, hv⟩ := C131_exact.2.1 (binary 53 (by norm_num)) [2, -1] 1 [3, 4] rfl
  refine ⟨v, hv, ?_⟩
  have h1 := (C131_predict _ _ _ _ v hv).1
  have h2 := (C131_factor (binary 53 (by norm_num)) 3 (by norm_num [binary])).2 (by norm_num [binary])
  have e1 : (List.zipWith (· * ·) [(3 : ℝ), 4] [2, -1]).sum + 1 = 3 := by norm_num
  have e2 : (List.zipWith (fun a b => |a * b|) [(3 : ℝ), 4] [2, -1]).sum + |1| = 11 := by norm_num
  rw [e1, e2] at h1
  refine h1.trans (mul_le_mul_of_nonneg_right ?_ (by norm_num))
  exact_mod_cast h2

/-- Beside C131: a mean and a sum in double precision. -/
example : ∃ m s, Mean (binary 53 (by norm_num)) [1, 2, 3] m ∧ Summed (binary 53 (by norm_num)) [1, 2, 3] s := by
  obtain ⟨_, _, m, _, _, _, ⟨s, hs, hm⟩, _⟩ := C131_exact.1 (binary 53 (by norm_num)) [1, 2, 3]
  exact ⟨m, s, ⟨s, hs, hm⟩, hs⟩

end OpenML
