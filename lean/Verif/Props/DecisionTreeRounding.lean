import Verif.Lemmas.DecisionTreeSim
import Verif.Props.DecisionTreeInvariance
import Verif.Spec.Nearest
import Mathlib.Data.Rat.Floor

/-!
# C142: decision trees with rounded thresholds
-/

set_option linter.unusedSectionVars false

namespace OpenML
open DTree Spec

variable {α : Type} [Field α] [LinearOrder α] [IsStrictOrderedRing α] {R : Type} [LinearOrder R]

/-! ## Rounding to nearest -/

namespace Nearest

theorem fixed {F : Set α} {rnd : α → α} (h : RoundsToNearest F rnd) {x : α} (hx : x ∈ F) : rnd x = x := by
  have := h.near x x hx
  rw [sub_self, abs_zero] at this
  exact sub_eq_zero.mp (abs_eq_zero.mp (le_antisymm this (abs_nonneg _)))

theorem between {F : Set α} {rnd : α → α} (h : RoundsToNearest F rnd) {a b x : α} (ha : a ∈ F) (hb : b ∈ F) (h1 : a ≤ x) (h2 : x ≤ b) :
    a ≤ rnd x ∧ rnd x ≤ b := by
  have e1 := h.near x a ha
  have e2 := h.near x b hb
  rw [abs_of_nonpos (by linarith : a - x ≤ 0)] at e1
  rw [abs_of_nonneg (by linarith : 0 ≤ b - x)] at e2
  exact ⟨by linarith [(abs_le.mp e1).1], by linarith [(abs_le.mp e2).2]⟩

/-- The threshold of a tree is the exact average, correctly rounded. -/
theorem roundedMid_near {F : Set α} {rnd : α → α} (h : RoundsToNearest F rnd) (hs : ScalesByTwo F) (a b : α) :
    roundedMid rnd a b = rnd (a + b) / 2 ∧ roundedMid rnd a b ∈ F ∧ ∀ c ∈ F, |roundedMid rnd a b - (a + b) / 2| ≤ |c - (a + b) / 2| := by
  have e : roundedMid rnd a b = rnd (a + b) / 2 := fixed h (hs.half _ (h.mem _))
  refine ⟨e, h.mem _, fun c hc => ?_⟩
  have h1 := h.near (a + b) (2 * c) (hs.double c hc)
  rw [e, show rnd (a + b) / 2 - (a + b) / 2 = (rnd (a + b) - (a + b)) / 2 by ring,
    show c - (a + b) / 2 = (2 * c - (a + b)) / 2 by ring, abs_div, abs_div]
  exact div_le_div_of_nonneg_right h1 (abs_nonneg _)

theorem roundedMid_mem {F : Set α} {rnd : α → α} (h : RoundsToNearest F rnd) (hs : ScalesByTwo F) {a b : α} (ha : a ∈ F) (hb : b ∈ F)
    (hab : a ≤ b) : a ≤ roundedMid rnd a b ∧ roundedMid rnd a b ≤ b := by
  rw [(roundedMid_near h hs a b).1]
  have := between h (hs.double a ha) (hs.double b hb) (x := a + b) (by linarith) (by linarith)
  exact ⟨by linarith [this.1], by linarith [this.2]⟩

theorem roundedMid_sep {F : Set α} {rnd : α → α} (h : RoundsToNearest F rnd) (hs : ScalesByTwo F) (V : α → Prop) (hV : ∀ a, V a → a ∈ F)
    (hgap : ∀ a b, V a → V b → a < b → ∃ c ∈ F, a < c ∧ c < b) : Sep (roundedMid rnd) V := by
  have key : ∀ a b, V a → V b → a < b → a < roundedMid rnd a b ∧ roundedMid rnd a b < b := by
    intro a b ha hb hab
    obtain ⟨c, hc, h1, h2⟩ := hgap a b ha hb hab
    have h3 := (roundedMid_near h hs a b).2.2 c hc
    have h4 : |c - (a + b) / 2| < (b - a) / 2 := abs_lt.mpr ⟨by linarith, by linarith⟩
    have h5 := abs_lt.mp (h3.trans_lt h4)
    exact ⟨by linarith [h5.1], by linarith [h5.2]⟩
  refine ⟨fun a ha => ?_, fun a b ha hb hab => (key a b ha hb hab).1, fun a b ha hb hab => (key a b ha hb hab).2⟩
  have := roundedMid_mem h hs (hV a ha) (hV a ha) le_rfl
  exact le_antisymm this.2 this.1

theorem binaryNumbers_scales (p : Nat) : ScalesByTwo (binaryNumbers α p) := by
  constructor
  · rintro x ⟨m, e, hm, rfl⟩
    exact ⟨m, e + 1, hm, by rw [zpow_add_one₀ two_ne_zero]; ring⟩
  · rintro x ⟨m, e, hm, rfl⟩
    exact ⟨m, e - 1, hm, by rw [zpow_sub_one₀ two_ne_zero]; ring⟩

theorem nearEven_near [FloorRing α] (z : α) : |(nearEven z : α) - z| ≤ 1 / 2 := by
  have h1 := Int.self_sub_floor z
  have h2 := Int.fract_nonneg z
  have h3 := Int.fract_lt_one z
  unfold nearEven
  rw [abs_le]
  split_ifs with h4 h5 h6
  · constructor <;> linarith
  · push_cast; constructor <;> linarith
  · constructor <;> linarith
  · push_cast; constructor <;> linarith

/-- Ties to even rounds to nearest. -/
theorem binaryEven_nearest [FloorRing α] (p : Nat) (hp : 0 < p) : RoundsToNearest (binaryNumbers α p) (binaryEven p) := by
  have base : ∀ x : α, binaryEven p x ∈ binaryNumbers α p ∧ ∀ y ∈ binaryNumbers α p, |binaryEven p x - x| ≤ |y - x| := by
    intro x
    by_cases hx : x = 0
    · subst hx
      have : binaryEven p (0 : α) = 0 := by
        have h1 := nearEven_near (0 : α)
        rw [sub_zero] at h1
        have h2 : nearEven (0 : α) = 0 := by
          have h3 : |nearEven (0 : α)| < 1 := by
            have : (|nearEven (0 : α)| : α) < 1 := lt_of_le_of_lt h1 (by norm_num)
            exact_mod_cast this
          exact Int.abs_lt_one_iff.mp h3
        simp [binaryEven, h2]
      rw [this]
      exact ⟨⟨0, 0, by positivity, by simp⟩, fun y _ => by simp⟩
    unfold binaryEven
    set e : ℤ := Int.log 2 |x| + 1 - p with he
    have hpos : (0 : α) < 2 ^ e := zpow_pos two_pos e
    set z := x / 2 ^ e with hz
    have hxz : x = z * 2 ^ e := by rw [hz, div_mul_cancel₀ _ hpos.ne']
    have l1 : ((2 : ℕ) : α) ^ Int.log 2 |x| ≤ |x| := Int.zpow_log_le_self (by norm_num) (abs_pos.mpr hx)
    have l2 : |x| < ((2 : ℕ) : α) ^ (Int.log 2 |x| + 1) := Int.lt_zpow_succ_log_self (by norm_num) _
    push_cast at l1 l2
    have e1 : (2 : α) ^ (Int.log 2 |x| + 1) = 2 ^ p * 2 ^ e := by
      rw [he, ← zpow_natCast, ← zpow_add₀ two_ne_zero]; congr 1; ring
    have e2 : (2 : α) ^ Int.log 2 |x| = 2 ^ (p - 1) * 2 ^ e := by
      rw [he, ← zpow_natCast, ← zpow_add₀ two_ne_zero]; congr 1; push_cast [Nat.cast_sub (show 1 ≤ p by omega)]; ring
    have hn := nearEven_near z
    set n := nearEven z
    have grid : ∀ N : ℤ, |(n : α) * 2 ^ e - x| ≤ |(N : α) * 2 ^ e - x| := by
      intro N
      have h1 : ∀ k : α, |k * 2 ^ e - x| = |k - z| * 2 ^ e := by
        intro k
        rw [hxz, ← sub_mul, abs_mul, abs_of_pos hpos]
      rw [h1, h1]
      refine mul_le_mul_of_nonneg_right ?_ hpos.le
      by_cases hN : N = n
      · rw [hN]
      · have h2 : (1 : α) ≤ |(N : α) - n| := by
          have : 1 ≤ |N - n| := Int.one_le_abs (sub_ne_zero.mpr hN)
          exact_mod_cast this
        have h3 : |(N : α) - n| ≤ |(N : α) - z| + |(n : α) - z| := by
          have := abs_sub_le (N : α) z n
          rwa [abs_sub_comm z] at this
        linarith
    refine ⟨⟨n, e, ?_, rfl⟩, ?_⟩
    · have h1 : |z| < 2 ^ p := by
        rw [hz, abs_div, abs_of_pos hpos, div_lt_iff₀ hpos, ← e1]
        exact l2
      have h2 : |(n : α)| < 2 ^ p + 1 := by
        have := abs_add_le ((n : α) - z) z
        rw [sub_add_cancel] at this
        linarith
      have h3 : |n| < 2 ^ p + 1 := by exact_mod_cast h2
      omega
    · rintro y ⟨m, k, hm, rfl⟩
      rcases le_or_gt e k with hk | hk
      · obtain ⟨j, hj⟩ := Int.eq_ofNat_of_zero_le (sub_nonneg.mpr hk)
        have : (m : α) * 2 ^ k = ((m * 2 ^ j : ℤ) : α) * 2 ^ e := by
          push_cast
          rw [mul_assoc, ← zpow_natCast, ← zpow_add₀ two_ne_zero]
          congr 2
          omega
        rw [this]
        exact grid _
      · have hy : |(m : α) * 2 ^ k| ≤ 2 ^ (p - 1) * 2 ^ e := by
          rw [abs_mul, abs_of_pos (zpow_pos two_pos k : (0 : α) < 2 ^ k)]
          have h1 : |(m : α)| ≤ 2 ^ p := by exact_mod_cast hm
          have h2 : (2 : α) ^ k ≤ 2 ^ (e - 1) := zpow_le_zpow_right₀ (by norm_num) (by omega)
          calc |(m : α)| * 2 ^ k ≤ 2 ^ p * 2 ^ (e - 1) := mul_le_mul h1 h2 (zpow_pos two_pos k).le (by positivity)
            _ = 2 ^ (p - 1) * 2 ^ e := by
              rw [← zpow_natCast, ← zpow_natCast, ← zpow_add₀ two_ne_zero, ← zpow_add₀ two_ne_zero]
              congr 1
              push_cast [Nat.cast_sub (show 1 ≤ p by omega)]
              ring
        rw [e2] at l1
        rcases le_total 0 x with h0 | h0
        · rw [abs_of_nonneg h0] at l1
          have h1 := grid (2 ^ (p - 1))
          push_cast at h1
          refine h1.trans ?_
          rw [abs_of_nonpos (by linarith), abs_sub_comm]
          have := (abs_le.mp hy).2
          rw [abs_of_nonneg (by linarith)]
          linarith
        · rw [abs_of_nonpos h0] at l1
          have h1 := grid (-2 ^ (p - 1))
          push_cast at h1
          refine h1.trans ?_
          rw [abs_of_nonneg (by linarith)]
          have := (abs_le.mp hy).1
          rw [abs_of_nonneg (by linarith)]
          linarith
  exact ⟨fun x => (base x).1, fun x => (base x).2⟩

theorem fitBy_eq_ok (mid : α → α → α) (start : R) (imp : List α → List α → List α → Res R) (P : Params R) (old : List α) (X : DMat α)
    (y : List α) (hy : y.length = X.nrows) (M : Model α) :
    fitBy mid start imp P old X y = .ok M ↔ M.classes = Impurity.keys (old ++ y) ∧
      buildBy mid (classifier (Impurity.keys (old ++ y)) start imp) P (P.maxDepth + 2) X y 0 = .ok M.root := by
  simp only [fitBy, DTree.labels_read y _ hy, Res.bind_ok, Res.bind_eq_ok]
  constructor
  · rintro ⟨T, h2, h3⟩
    cases h3
    exact ⟨rfl, h2⟩
  · rintro ⟨h2, h3⟩
    exact ⟨M.root, h3, by rw [← h2]⟩

theorem bestSplit_mid (mid : α → α → α) (imp : List α → List α → List α → Res R) (X : DMat α) (hx : X.WF) (y : List α)
    (hy : y.length = X.nrows) (start : R) (b : Best α R) (h : bestSplitBy mid start imp X y = .ok b) (f : Nat) (t : α)
    (hs : b.split = some (f, t)) : ∃ a c, a ∈ X.col f ∧ c ∈ X.col f ∧ a ≤ c ∧ t = mid a c := by
  obtain ⟨tss, h1, -, -, h4⟩ := bestSplit_specBy mid imp X hx y hy start b h
  rcases h4 with rfl | ⟨pre, c, post, e1, e2, -⟩
  · cases hs
  rw [hs] at e2
  cases e2
  have hmem : (f, t) ∈ ((List.range X.ncols).zip tss).flatMap fun q => q.2.map fun t => (q.1, t) := by rw [e1]; simp
  simp only [List.mem_flatMap, List.mem_map] at hmem
  obtain ⟨⟨g, ts⟩, hq, u, hu, hqu⟩ := hmem
  simp only [Prod.mk.injEq] at hqu
  obtain ⟨rfl, rfl⟩ := hqu
  have hts : thresholdsBy mid (X.col g) = .ok ts := by
    clear e1
    generalize List.range X.ncols = fs at h1 hq
    induction h1 with
    | nil => simp at hq
    | cons h0 _ ih =>
      rw [List.zip_cons_cons, List.mem_cons] at hq
      rcases hq with hq | hq
      · cases hq; exact h0
      · exact ih hq
  rcases Nat.lt_or_ge (X.col g).length 3 with h3 | h3
  · rcases Nat.lt_or_ge (X.col g).length 1 with h5 | h5
    · have hnil : X.col g = [] := List.length_eq_zero_iff.mp (by omega)
      rw [hnil] at hts
      unfold thresholdsBy at hts
      simp only [Res.bind_eq_ok] at hts
      obtain ⟨r, -, s, hs', hts⟩ := hts
      cases r with
      | nil =>
        cases hs'
        rw [← Res.ok.inj hts] at hu
        simp [midpointsBy, VecOps.stdSort, VecOps.stdUnique] at hu
      | cons i r => simp [mapRes, readAt] at hs'
    · rw [thresholds_smallBy mid _ (by omega)] at hts
      cases hts
  · obtain ⟨ts', h6, -, -, h7⟩ := thresholds_okBy mid (X.col g) h3
    rw [hts] at h6
    cases h6
    obtain ⟨i, a, c, ha, hc, rfl⟩ := (h7 u).mp hu
    have hp := List.perm_insertionSort (· ≤ ·) (X.col g)
    refine ⟨a, c, hp.mem_iff.mp (List.mem_of_getElem? ha), hp.mem_iff.mp (List.mem_of_getElem? hc), ?_, rfl⟩
    obtain ⟨h8, rfl⟩ := List.getElem?_eq_some_iff.mp ha
    obtain ⟨h9, rfl⟩ := List.getElem?_eq_some_iff.mp hc
    exact List.pairwise_iff_getElem.mp (List.pairwise_insertionSort (· ≤ ·) (X.col g)) _ _ _ _ (by omega)

/-- What the tree fitted with rounding (`T'`) and the exact one (`T`) have in common. -/
structure SameTree {ν : Type} (F : Set α) (X : DMat α) (T T' : Tree α ν) : Prop where
  value : ∀ p, valueAt T' p = valueAt T p
  rows : ∀ x ∈ X.rows, ∀ p, Follows x T' p ↔ Follows x T p
  splits : ∀ p f t, splitAt T p = some (some (f, t)) → ∃ t' ∈ F, splitAt T' p = some (some (f, t')) ∧ ∀ c ∈ F, |t' - t| ≤ |c - t|
  back : ∀ p f t', splitAt T' p = some (some (f, t')) → ∃ t, splitAt T p = some (some (f, t))
  queries : ∀ x : List α, (∀ a ∈ x, a ∈ F) → (∀ p f t', splitAt T' p = some (some (f, t')) → x[f]? ≠ some t') → route x T' = route x T
  training : ∀ x ∈ X.rows, route x T' = route x T

theorem sameTree_of_sim {ν : Type} {F : Set α} {rnd : α → α} (h : RoundsToNearest F rnd) (hs : ScalesByTwo F) (X : DMat α)
    (V : Nat → α → Prop) (T T' : Tree α ν) (hsim : Sim (fun a b => (a + b) / 2) (roundedMid rnd) V X.rows T T') : SameTree F X T T' := by
  have hsp : ∀ p f t, splitAt T p = some (some (f, t)) → ∃ t' ∈ F, splitAt T' p = some (some (f, t')) ∧ ∀ c ∈ F, |t' - t| ≤ |c - t| := by
    intro p f t hp
    rcases hsim.splits p with ⟨-, h1⟩ | ⟨g, a, c, h1, h2, -⟩
    · exact absurd hp (h1 f t)
    · rw [hp] at h1
      simp only [Option.some.injEq, Prod.mk.injEq] at h1
      obtain ⟨rfl, rfl⟩ := h1
      obtain ⟨-, h3, h4⟩ := roundedMid_near h hs a c
      exact ⟨_, h3, h2, h4⟩
  refine ⟨fun p => (hsim.value p).symm, fun x hx p => (hsim.follows x hx p).symm, hsp, ?_, ?_, ?_⟩
  · intro p f t' hp
    rcases hsim.splits p with ⟨e, h1⟩ | ⟨g, a, c, h1, h2, -⟩
    · rw [← e] at hp
      exact absurd hp (h1 f t')
    · rw [hp] at h2
      simp only [Option.some.injEq, Prod.mk.injEq] at h2
      obtain ⟨rfl, -⟩ := h2
      exact ⟨_, h1⟩
  · intro x hxF hne
    refine (hsim.route x ?_).symm
    intro p f t t' e1 e2 w hw
    obtain ⟨t2, h1, h2, h3⟩ := hsp p f t e1
    rw [e2] at h2
    simp only [Option.some.injEq, Prod.mk.injEq, true_and] at h2
    subst h2
    have hwF := hxF w (List.mem_of_getElem? hw)
    have hwt : w ≠ t' := fun h0 => hne p f t' e2 (by rw [hw, h0])
    have h4 := h3 w hwF
    constructor
    · intro hle
      rw [abs_of_nonpos (by linarith : w - t ≤ 0)] at h4
      linarith [(abs_le.mp h4).1]
    · intro hle
      by_contra hgt
      push Not at hgt
      rw [abs_of_pos (by linarith : 0 < w - t)] at h4
      exact hwt (le_antisymm hle (by linarith [(abs_le.mp h4).2]))
  · intro x hx
    have : ∀ (rows : List (List α)) (T T' : Tree α ν), Sim (fun a b => (a + b) / 2) (roundedMid rnd) V rows T T' → x ∈ rows →
        route x T = route x T' := by
      intro rows T T' hs hx
      induction hs with
      | null => rfl
      | leaf => rfl
      | split rows lrows rrows v f a c l l' r r' _ _ _ _ _ hlen h1 _ _ hl hr ihl ihr =>
        have hw := List.getElem?_eq_getElem (hlen x hx)
        obtain ⟨-, h3, h4, h5⟩ := h1 x hx _ hw
        cases l with
        | null =>
          rw [hl.null_iff.mp rfl]
          rfl
        | node v1 s1 l1 r1 =>
          cases l' with
          | null => exact absurd (hl.null_iff.mpr rfl) (by simp)
          | node v2 s2 l2 r2 =>
            simp only [DTree.route, readAt, hw, Res.bind_ok]
            by_cases hle : x[f]'(hlen x hx) ≤ (a + c) / 2
            · rw [if_pos hle, if_pos (h3.mp hle)]; exact ihl (h4 hle)
            · rw [if_neg hle, if_neg fun h => hle (h3.mpr h)]; exact ihr (h5 (not_le.mp hle))
    exact (this X.rows T T' hsim hx).symm

end Nearest

open Nearest

/-! ## C142 -/

/-- C142. Suppose features are numbers of a format, averages are rounded to nearest after both operations, and between any two different
values of a feature lies another number of the format. Then the classification tree fitted with rounding is the tree fitted in exact
arithmetic with every threshold correctly rounded: the nodes and their counts are the same, and training samples take the same way. The
criterion may be any function of the targets of the node and of both parts. Queries consisting of numbers of the format get the same
probabilities unless one of their values equals a threshold. -/
theorem C142_classifier {F : Set α} {rnd : α → α} (hr : RoundsToNearest F rnd) (hs : ScalesByTwo F) (start : R)
    (imp : List α → List α → List α → Res R) (P : Params R) (old : List α) (X : DMat α) (hx : X.WF) (y : List α) (hy : y.length = X.nrows)
    (hF : ∀ f, ∀ a ∈ X.col f, a ∈ F) (hgap : ∀ f, ∀ a ∈ X.col f, ∀ b ∈ X.col f, a < b → ∃ c ∈ F, a < c ∧ c < b) :
    (∀ M, fit start imp P old X y = .ok M → ∃ M', fitBy (roundedMid rnd) start imp P old X y = .ok M') ∧
    ∀ M', fitBy (roundedMid rnd) start imp P old X y = .ok M' → ∃ M, fit start imp P old X y = .ok M ∧
      M'.classes = M.classes ∧ (∀ p, valueAt M'.root p = valueAt M.root p) ∧
      (∀ x ∈ X.rows, ∀ p, Follows x M'.root p ↔ Follows x M.root p) ∧
      (∀ p f t, splitAt M.root p = some (some (f, t)) →
        ∃ t' ∈ F, splitAt M'.root p = some (some (f, t')) ∧ ∀ c ∈ F, |t' - t| ≤ |c - t|) ∧
      (∀ p f t', splitAt M'.root p = some (some (f, t')) → ∃ t, splitAt M.root p = some (some (f, t))) ∧
      predictProb M' X.rows = predictProb M X.rows ∧ predict M' X.rows = predict M X.rows ∧
      ∀ Q : List (List α), (∀ x ∈ Q, (∀ a ∈ x, a ∈ F) ∧
          ∀ p f t', splitAt M'.root p = some (some (f, t')) → x[f]? ≠ some t') →
        predictProb M' Q = predictProb M Q ∧ predict M' Q = predict M Q := by
  have hsep : ∀ f, Sep (roundedMid rnd) (· ∈ X.col f) := fun f =>
    roundedMid_sep hr hs _ (hF f) fun a b ha hb => hgap f a ha b hb
  have hsim := build_sim (V := fun f a => a ∈ X.col f) (fun f => sep_exact (α := α) (· ∈ X.col f)) hsep
    (classifier (Impurity.keys (old ++ y)) start imp) P (P.maxDepth + 2) X hx y hy (fun _ _ h => h) 0
  rw [← build_exact] at hsim
  constructor
  · intro M hM
    rw [DTree.fit_eq_ok start imp P old X y hy] at hM
    rw [hM.2] at hsim
    cases hb : buildBy (roundedMid rnd) (classifier (Impurity.keys (old ++ y)) start imp) P (P.maxDepth + 2) X y 0 with
    | ok T => exact ⟨⟨_, T⟩, (fitBy_eq_ok _ start imp P old X y hy _).mpr ⟨rfl, hb⟩⟩
    | throw e => rw [hb] at hsim; exact hsim.elim
    | ub => rw [hb] at hsim; exact hsim.elim
    | diverge => rw [hb] at hsim; exact hsim.elim
  · intro M' hM'
    rw [fitBy_eq_ok _ start imp P old X y hy] at hM'
    rw [hM'.2] at hsim
    cases hb : build (classifier (Impurity.keys (old ++ y)) start imp) P (P.maxDepth + 2) X y 0 with
    | throw e => rw [hb] at hsim; exact hsim.elim
    | ub => rw [hb] at hsim; exact hsim.elim
    | diverge => rw [hb] at hsim; exact hsim.elim
    | ok T =>
      rw [hb] at hsim
      have hst := sameTree_of_sim hr hs X _ T M'.root hsim
      refine ⟨⟨Impurity.keys (old ++ y), T⟩, (DTree.fit_eq_ok start imp P old X y hy _).mpr ⟨rfl, hb⟩, hM'.1, hst.value, hst.rows,
        hst.splits, hst.back, ?_⟩
      have hprob : ∀ Q : List (List α), (∀ x ∈ Q, route x M'.root = route x T) →
          predictProb M' Q = predictProb ⟨Impurity.keys (old ++ y), T⟩ Q ∧ predict M' Q = predict ⟨Impurity.keys (old ++ y), T⟩ Q := by
        intro Q hQ
        have h1 : predictProb M' Q = predictProb ⟨Impurity.keys (old ++ y), T⟩ Q := by
          unfold predictProb
          induction Q with
          | nil => rfl
          | cons x Q ih =>
            simp only [mapRes, hQ x (by simp)]
            rw [ih fun z hz => hQ z (by simp [hz])]
        refine ⟨h1, ?_⟩
        unfold predict
        rw [h1, hM'.1]
      have h2 := hprob X.rows hst.training
      exact ⟨h2.1, h2.2, fun Q hQ => hprob Q fun x hxQ => hst.queries x (hQ x hxQ).1 (hQ x hxQ).2⟩

/-- The same data as in the example of C34, in `double`: the hypotheses hold. -/
example : RoundsToNearest (binaryNumbers ℚ 53) (binaryEven 53) ∧ ScalesByTwo (binaryNumbers ℚ 53) ∧
    (∀ f, ∀ a ∈ demo.col f, a ∈ binaryNumbers ℚ 53) ∧
    (∀ f, ∀ a ∈ demo.col f, ∀ b ∈ demo.col f, a < b → ∃ c ∈ binaryNumbers ℚ 53, a < c ∧ c < b) ∧
    fitBy (roundedMid (binaryEven 53)) (1 / 1000) giniScore demoParams [] demo [10, 10, 20, 20] = .ok ⟨[10, 20],
      .node [2, 2] (some (0, 5 / 2)) (.node [2, 0] none .null .null) (.node [0, 2] none .null .null)⟩ := by
  have hint : ∀ n : ℤ, |n| ≤ 100 → (n : ℚ) ∈ binaryNumbers ℚ 53 ∧ (n : ℚ) + 1 / 2 ∈ binaryNumbers ℚ 53 := by
    intro n hn
    refine ⟨⟨n, 0, by omega, by simp⟩, ⟨2 * n + 1, -1, ?_, ?_⟩⟩
    · rw [abs_le] at hn ⊢
      omega
    · push_cast
      rw [zpow_neg_one]
      ring
  have hcol : ∀ f, ∀ a ∈ demo.col f, ∃ n : ℤ, |n| ≤ 100 ∧ a = n := by
    intro f a ha
    match f with
    | 0 =>
      have : a ∈ [(1 : ℚ), 2, 3, 4] := ha
      simp only [List.mem_cons, List.not_mem_nil, or_false] at this
      rcases this with rfl | rfl | rfl | rfl
      · exact ⟨1, by decide, by norm_num⟩
      · exact ⟨2, by decide, by norm_num⟩
      · exact ⟨3, by decide, by norm_num⟩
      · exact ⟨4, by decide, by norm_num⟩
    | 1 =>
      have : a ∈ [(5 : ℚ), 5, 7, 9] := ha
      simp only [List.mem_cons, List.not_mem_nil, or_false] at this
      rcases this with rfl | rfl | rfl | rfl
      · exact ⟨5, by decide, by norm_num⟩
      · exact ⟨5, by decide, by norm_num⟩
      · exact ⟨7, by decide, by norm_num⟩
      · exact ⟨9, by decide, by norm_num⟩
    | f + 2 =>
      have : a ∈ ([] : List ℚ) := ha
      simp at this
  refine ⟨binaryEven_nearest 53 (by norm_num), binaryNumbers_scales 53, ?_, ?_, by decide +kernel⟩
  · intro f a ha
    obtain ⟨n, hn, rfl⟩ := hcol f a ha
    exact (hint n hn).1
  · intro f a ha b hb hab
    obtain ⟨n, hn, rfl⟩ := hcol f a ha
    obtain ⟨k, hk, rfl⟩ := hcol f b hb
    refine ⟨(n : ℚ) + 1 / 2, (hint n hn).2, by linarith, ?_⟩
    have : n + 1 ≤ k := by exact_mod_cast hab
    have : (n : ℚ) + 1 ≤ k := by exact_mod_cast this
    linarith

/-- C142. The same for regression trees, with any functions for the value of a node, the early return and the criterion. -/
theorem C142_regressor {F : Set α} {rnd : α → α} (hr : RoundsToNearest F rnd) (hs : ScalesByTwo F) (value : List α → Res α)
    (stop : List α → Bool) (start : R) (imp : List α → List α → List α → Res R) (P : Params R) (X : DMat α) (hx : X.WF) (y : List α)
    (hy : y.length = X.nrows) (hF : ∀ f, ∀ a ∈ X.col f, a ∈ F)
    (hgap : ∀ f, ∀ a ∈ X.col f, ∀ b ∈ X.col f, a < b → ∃ c ∈ F, a < c ∧ c < b) (T' : Tree α α)
    (h : fitRegressorBy (roundedMid rnd) value stop start imp P X y = .ok T') :
    ∃ T, build ⟨value, stop, imp, start⟩ P (P.maxDepth + 2) X y 0 = .ok T ∧ (∀ p, valueAt T' p = valueAt T p) ∧
      (∀ x ∈ X.rows, ∀ p, Follows x T' p ↔ Follows x T p) ∧
      (∀ p f t, splitAt T p = some (some (f, t)) → ∃ t' ∈ F, splitAt T' p = some (some (f, t')) ∧ ∀ c ∈ F, |t' - t| ≤ |c - t|) ∧
      predictRegressor T' X.rows = predictRegressor T X.rows ∧
      ∀ Q : List (List α), (∀ x ∈ Q, (∀ a ∈ x, a ∈ F) ∧ ∀ p f t', splitAt T' p = some (some (f, t')) → x[f]? ≠ some t') →
        predictRegressor T' Q = predictRegressor T Q := by
  have hsep : ∀ f, Sep (roundedMid rnd) (· ∈ X.col f) := fun f =>
    roundedMid_sep hr hs _ (hF f) fun a b ha hb => hgap f a ha b hb
  have hsim := build_sim (V := fun f a => a ∈ X.col f) (fun f => sep_exact (α := α) (· ∈ X.col f)) hsep
    (⟨value, stop, imp, start⟩ : Algo α α R) P (P.maxDepth + 2) X hx y hy (fun _ _ h => h) 0
  rw [← build_exact] at hsim
  have h' : buildBy (roundedMid rnd) (⟨value, stop, imp, start⟩ : Algo α α R) P (P.maxDepth + 2) X y 0 = .ok T' := h
  rw [h'] at hsim
  cases hb : build (⟨value, stop, imp, start⟩ : Algo α α R) P (P.maxDepth + 2) X y 0 with
  | throw e => rw [hb] at hsim; exact hsim.elim
  | ub => rw [hb] at hsim; exact hsim.elim
  | diverge => rw [hb] at hsim; exact hsim.elim
  | ok T =>
    rw [hb] at hsim
    have hst := sameTree_of_sim hr hs X _ T T' hsim
    have hpr : ∀ Q : List (List α), (∀ x ∈ Q, route x T' = route x T) → predictRegressor T' Q = predictRegressor T Q := by
      intro Q hQ
      unfold predictRegressor
      induction Q with
      | nil => rfl
      | cons x Q ih =>
        simp only [mapRes, hQ x (by simp)]
        rw [ih fun z hz => hQ z (by simp [hz])]
    exact ⟨T, rfl, hst.value, hst.rows, hst.splits, hpr _ hst.training,
      fun Q hQ => hpr Q fun x hxQ => hst.queries x (hQ x hxQ).1 (hQ x hxQ).2⟩

/-- A regression tree fitted in `double`. -/
example : (do
    let T ← fitRegressorBy (roundedMid (binaryEven 53)) meanTarget (stdevStop 0) (1 / 1000) squaredScore ⟨4, 0, 5, -100⟩
      ⟨1, [[1], [2], [3], [4]]⟩ [1, 1, 9, 9]
    predictRegressor T [[0], [9]]) = .ok [(1 : ℚ), 9] := by decide +kernel

/-- C142. Without a condition on the data, only with rounding to nearest: the threshold of every split is a number of the format between
two values of the feature among the training samples of the node. -/
theorem C142_range {F : Set α} {rnd : α → α} (hr : RoundsToNearest F rnd) (hs : ScalesByTwo F) (start : R)
    (imp : List α → List α → List α → Res R) (P : Params R) (old : List α) (X : DMat α) (hx : X.WF) (y : List α)
    (hy : y.length = X.nrows) (hF : ∀ f, ∀ a ∈ X.col f, a ∈ F) (M : Model α)
    (h : fitBy (roundedMid rnd) start imp P old X y = .ok M) (p : List Bool) (f : Nat) (t : α)
    (hsp : splitAt M.root p = some (some (f, t))) :
    t ∈ F ∧ (∃ x ∈ X.rows, Follows x M.root p ∧ ∃ a, x[f]? = some a ∧ a ≤ t) ∧
      ∃ x ∈ X.rows, Follows x M.root p ∧ ∃ b, x[f]? = some b ∧ t ≤ b := by
  obtain ⟨-, h2⟩ := (fitBy_eq_ok _ start imp P old X y hy M).mp h
  obtain ⟨fuel, S, hS, hsS, hwf, hlen⟩ := build_nodeBy _ _ P _ X hx y hy 0 M.root h2 p _ hsp
  obtain ⟨v, -, hc⟩ := build_casesBy _ _ P fuel _ hwf _ hlen _ S hS
  rcases hc with rfl | ⟨f', t', l, r, b, rfl, -, -, -, hb, hbs, -⟩
  · cases hsS
  cases hsS
  obtain ⟨a, c, ha, hc, hac, rfl⟩ := bestSplit_mid _ _ _ hwf _ hlen _ b hb f t hbs
  have hmem : ∀ w ∈ DMat.col ⟨X.ncols, rowsAt M.root X.rows y p⟩ f, ∃ x ∈ X.rows, Follows x M.root p ∧ x[f]? = some w := by
    classical
    intro w hw
    obtain ⟨x, hxm, hxw⟩ := List.mem_filterMap.mp hw
    unfold rowsAt at hxm
    obtain ⟨e, he, rfl⟩ := List.mem_map.mp hxm
    obtain ⟨he1, he2⟩ := List.mem_filter.mp he
    exact ⟨e.1, (List.of_mem_zip he1).1, of_decide_eq_true he2, hxw⟩
  obtain ⟨x, hx1, hx2, hx3⟩ := hmem a ha
  obtain ⟨z, hz1, hz2, hz3⟩ := hmem c hc
  have := roundedMid_mem hr hs (hF f a (mem_col_of hx1 hx3)) (hF f c (mem_col_of hz1 hz3)) hac
  exact ⟨hr.mem _, ⟨x, hx1, hx2, a, hx3, this.1⟩, ⟨z, hz1, hz2, c, hz3, this.2⟩⟩

/-- C142. Whatever function is used for the thresholds, so with any rounding: every node holds the counts of the training samples that
satisfy the conditions on the way to it, the limits of C36 hold, and with `min_samples_leaf = 0` predictions never fail. -/
theorem C142_structure (mid : α → α → α) (start : R) (imp : List α → List α → List α → Res R) (P : Params R) (old : List α) (X : DMat α)
    (hx : X.WF) (y : List α) (hy : y.length = X.nrows) (M : Model α) (h : fitBy mid start imp P old X y = .ok M) :
    (∀ p c, valueAt M.root p = some c → c = (M.classes.map fun k => (targetsAt M.root X.rows y p).count k) ∧
      p.length ≤ P.maxDepth + 1 ∧ (p ≠ [] → P.minLeaf ≤ (targetsAt M.root X.rows y p).length)) ∧
    (∀ p, IsSplit M.root p → p.length ≤ P.maxDepth ∧ P.minSplit ≤ (targetsAt M.root X.rows y p).length) ∧
    (P.minLeaf = 0 → ∀ Q : List (List α), (∀ x ∈ Q, x.length = X.ncols) → ∃ O, predictProb M Q = .ok O) := by
  obtain ⟨h1, h2⟩ := (fitBy_eq_ok mid start imp P old X y hy M).mp h
  refine ⟨fun p c hc => ?_, fun p hp => ?_, fun hm Q hQ => ?_⟩
  · obtain ⟨e1, e2⟩ := (build_invBy mid _ P _ X hx y hy 0 M.root h2 p).1 c hc
    refine ⟨?_, ?_, fun hp => (e2 hp).2⟩
    · simp only [classifier, classCounts] at e1
      split at e1
      · cases e1
      · rw [h1]; exact (Res.ok.inj e1).symm
    · by_cases hp : p = []
      · simp [hp]
      · have := (e2 hp).1
        omega
  · have := (build_invBy mid _ P _ X hx y hy 0 M.root h2 p).2 hp
    simpa using this
  · refine KDTree.mapRes_total Q fun x hxQ => ?_
    obtain ⟨c, hc⟩ := route_totalBy mid _ P hm _ X hx y hy 0 M.root h2 x (hQ x hxQ)
    exact ⟨probs c, by rw [hc, Res.bind_ok]⟩

/-- Beside C142_range and C142_structure: neighbours in `double` (see C142_adjacent). -/
example : fitBy (roundedMid (binaryEven 53)) (1 / 1000) giniScore ⟨3, 0, 5, 0⟩ [] ⟨1, [[1], [1 + 1 / 2 ^ 52], [1 + 1 / 2 ^ 51]]⟩ [(0 : ℚ), 0, 1] =
    .ok ⟨[0, 1], .node [2, 1] (some (0, 1)) (.node [1, 0] none .null .null) (.node [1, 1] none .null .null)⟩ := by decide +kernel

/-- C142. The condition on the data is needed: with the three consecutive numbers 1, 1 + 2⁻⁵² and 1 + 2⁻⁵¹ of `double` and labels 0, 0, 1,
exact arithmetic predicts all labels; with rounding the only thresholds are 1 and 1 + 2⁻⁵¹, so the last two samples cannot be separated,
and the last one gets the wrong class. -/
theorem C142_adjacent : ∃ X : DMat ℚ, X.WF ∧ (∀ f, ∀ a ∈ X.col f, a ∈ binaryNumbers ℚ 53) ∧
    thresholdsBy (roundedMid (binaryEven 53)) (X.col 0) = .ok [1, 1 + 1 / 2 ^ 51] ∧
    (do let M ← fit (1 / 1000) giniScore ⟨3, 0, 5, 0⟩ [] X [0, 0, 1]; predict M X.rows) = .ok [0, 0, 1] ∧
    (do let M ← fitBy (roundedMid (binaryEven 53)) (1 / 1000) giniScore ⟨3, 0, 5, 0⟩ [] X [0, 0, 1]; predict M X.rows) = .ok [0, 0, 0] := by
  refine ⟨⟨1, [[1], [1 + 1 / 2 ^ 52], [1 + 1 / 2 ^ 51]]⟩, by simp [DMat.WF], ?_, by decide +kernel, by decide +kernel, by decide +kernel⟩
  intro f a ha
  match f with
  | 0 =>
    have : a ∈ [(1 : ℚ), 1 + 1 / 2 ^ 52, 1 + 1 / 2 ^ 51] := ha
    simp only [List.mem_cons, List.not_mem_nil, or_false] at this
    rcases this with rfl | rfl | rfl
    · exact ⟨1, 0, by norm_num, by norm_num⟩
    · exact ⟨2 ^ 52 + 1, -52, by norm_num, by norm_num⟩
    · exact ⟨2 ^ 51 + 1, -51, by norm_num, by norm_num⟩
  | f + 1 =>
    have : a ∈ ([] : List ℚ) := ha
    simp at this

end OpenML
