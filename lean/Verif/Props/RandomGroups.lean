import Verif.Props.PlusPlusGroups
import Verif.Props.HoldOut
import Verif.Lemmas.Sampling
import Mathlib.Logic.Equiv.Fintype
import Mathlib.Data.Fintype.Perm
import Mathlib.Data.Fintype.BigOperators

/-!
# How often random initialisation of k-means takes one sample of each group (C187)
-/

namespace OpenML

open Spec Data Random KMeans

namespace RandomGroups

variable {n k : Nat}

/-- The entries from `k` on. -/
def later : {a : Fin n // k ≤ a.val} ≃ Fin (n - k) where
  toFun a := ⟨a.1.1 - k, by have := a.1.2; have := a.2; omega⟩
  invFun b := ⟨⟨b.1 + k, by have := b.2; omega⟩, by simp⟩
  left_inv a := by
    have := a.2
    apply Subtype.ext
    apply Fin.ext
    simp only
    omega
  right_inv b := by
    apply Fin.ext
    simp

theorem card_later : Fintype.card {a : Fin n // k ≤ a.val} = n - k := by
  rw [Fintype.card_congr later, Fintype.card_fin]

/-- Permutations with given different first entries. -/
theorem extensions (hk : k ≤ n) (e : Fin k → Fin n) (he : Function.Injective e) :
    (Finset.univ.filter fun s : Equiv.Perm (Fin n) => ∀ i, s (Fin.castLE hk i) = e i).card = (n - k).factorial := by
  classical
  have hι : Function.Injective (Fin.castLE hk) := Fin.castLE_injective hk
  let r : {x // x ∈ Set.range (Fin.castLE hk)} ≃ {x // x ∈ Set.range e} := (Equiv.ofInjective _ hι).symm.trans (Equiv.ofInjective e he)
  let s0 : Equiv.Perm (Fin n) := r.extendSubtype
  have h0 : ∀ i, s0 (Fin.castLE hk i) = e i := by
    intro i
    have h1 := r.extendSubtype_apply_of_mem (Fin.castLE hk i) ⟨i, rfl⟩
    have h2 : (⟨Fin.castLE hk i, ⟨i, rfl⟩⟩ : {x // x ∈ Set.range (Fin.castLE hk)}) = Equiv.ofInjective _ hι i := rfl
    change r.extendSubtype (Fin.castLE hk i) = e i
    rw [h1, h2]
    simp [r]
  rw [← Fintype.card_subtype]
  have E1 : {s : Equiv.Perm (Fin n) // ∀ i, s (Fin.castLE hk i) = e i} ≃ {f : Equiv.Perm (Fin n) // ∀ a, ¬ k ≤ a.val → f a = a} := by
    refine (Equiv.mulLeft s0⁻¹).subtypeEquiv fun s => ?_
    constructor
    · intro h a ha
      have := h ⟨a.1, by omega⟩
      rw [← h0] at this
      have ha' : Fin.castLE hk ⟨a.1, by omega⟩ = a := rfl
      rw [ha'] at this
      simp [this]
    · intro h i
      have := h (Fin.castLE hk i) (by simp)
      rw [Equiv.coe_mulLeft, Equiv.Perm.mul_apply, Equiv.Perm.inv_eq_iff_eq] at this
      rw [this, h0]
  rw [Fintype.card_congr E1, ← Fintype.card_congr (Equiv.Perm.subtypeEquivSubtypePerm fun a : Fin n => k ≤ a.val), Fintype.card_perm,
    card_later]

/-- Choices of one sample of each group. -/
theorem transversals (g : Fin n → Fin k) :
    (Finset.univ.filter fun e : Fin k → Fin n => Function.Bijective (g ∘ e)).card =
      k.factorial * ∏ a, (Finset.univ.filter fun i => g i = a).card := by
  classical
  have h : (Finset.univ.filter fun e : Fin k → Fin n => Function.Bijective (g ∘ e)) =
      Finset.univ.biUnion fun t : Equiv.Perm (Fin k) => Fintype.piFinset fun j => Finset.univ.filter fun i => g i = t j := by
    ext e
    simp only [Finset.mem_filter, Finset.mem_univ, true_and, Finset.mem_biUnion, Fintype.mem_piFinset]
    constructor
    · intro hb
      exact ⟨Equiv.ofBijective _ hb, fun j => rfl⟩
    · rintro ⟨t, ht⟩
      have : g ∘ e = t := funext ht
      rw [this]
      exact t.bijective
  rw [h, Finset.card_biUnion]
  · have : ∀ t ∈ (Finset.univ : Finset (Equiv.Perm (Fin k))),
        (Fintype.piFinset fun j => Finset.univ.filter fun i => g i = t j).card = ∏ a, (Finset.univ.filter fun i => g i = a).card := by
      intro t _
      rw [Fintype.card_piFinset]
      exact Equiv.prod_comp t fun a => (Finset.univ.filter fun i => g i = a).card
    rw [Finset.sum_congr rfl this, Finset.sum_const, Finset.card_univ, Fintype.card_perm, Fintype.card_fin, smul_eq_mul]
  · intro t _ t' _ hne
    rw [Function.onFun, Finset.disjoint_left]
    intro e h1 h2
    refine hne (Equiv.ext fun j => ?_)
    have h1 := (Finset.mem_filter.mp (Fintype.mem_piFinset.mp h1 j)).2
    have h2 := (Finset.mem_filter.mp (Fintype.mem_piFinset.mp h2 j)).2
    rw [← h1, ← h2]

theorem count (hk : k ≤ n) (g : Fin n → Fin k) :
    (Finset.univ.filter fun s : Equiv.Perm (Fin n) => Function.Bijective fun i : Fin k => g (s (Fin.castLE hk i))).card =
      k.factorial * (∏ a, (Finset.univ.filter fun i => g i = a).card) * (n - k).factorial := by
  classical
  rw [← transversals g, Finset.card_eq_sum_card_fiberwise (f := fun s i => s (Fin.castLE hk i))
    (t := Finset.univ.filter fun e : Fin k → Fin n => Function.Bijective (g ∘ e))]
  · rw [Finset.sum_congr rfl (g := fun _ => (n - k).factorial), Finset.sum_const, smul_eq_mul]
    intro e he
    have he := (Finset.mem_filter.mp he).2
    rw [← extensions hk e he.1.of_comp]
    congr 1
    ext s
    simp only [Finset.mem_filter, Finset.mem_univ, true_and]
    constructor
    · rintro ⟨_, h⟩ i
      exact congrFun h i
    · intro h
      have : (fun i => s (Fin.castLE hk i)) = e := funext h
      refine ⟨?_, this⟩
      have h2 : (fun i => g (s (Fin.castLE hk i))) = g ∘ e := by rw [← this]; rfl
      rw [h2]
      exact he
  · intro s hs
    simpa using hs

theorem card_group (G : List Nat) (a : Nat) : (Finset.univ.filter fun i : Fin G.length => G[i] = a).card = G.count a := by
  induction G with
  | nil => rfl
  | cons b G ih =>
    rw [Finset.card_filter] at ih ⊢
    erw [Fin.sum_univ_succ]
    rw [List.count_cons, ← ih, add_comm]
    congr 1
    by_cases h : b = a <;> simp [h]

/-- The groups of the first `k` entries. -/
theorem first_groups (G : List Nat) (hk : k ≤ G.length) (hG : ∀ a ∈ G, a < k) (d : Draws G.length) :
    ((permutation d.seq G.length).take k).map (G.getD · 0) =
      List.ofFn fun i : Fin k => ((⟨G[Sampling.order d (Fin.castLE hk i)], hG _ (List.getElem_mem _)⟩ : Fin k) : Nat) := by
  have hl := permutation_length d.seq G.length
  refine List.ext_getElem (by simp [hl, hk]) fun i h1 h2 => ?_
  rw [List.length_ofFn] at h2
  have hi : i < G.length := by omega
  rw [List.getElem_map, List.getElem_take, List.getElem_ofFn]
  have h3 : (Sampling.order d (Fin.castLE hk ⟨i, h2⟩)).val = (permutation d.seq G.length)[i]'(by rw [hl]; exact hi) := rfl
  have h4 : (permutation d.seq G.length)[i]'(by rw [hl]; exact hi) < G.length := h3 ▸ (Sampling.order d (Fin.castLE hk ⟨i, h2⟩)).2
  rw [List.getD_eq_getElem?_getD, List.getElem?_eq_getElem h4, Option.getD_some]
  rfl

theorem perm_range (f : Fin k → Fin k) : (List.ofFn fun i => (f i).val).Perm (List.range k) ↔ Function.Bijective f := by
  constructor
  · intro h
    have h1 := h.nodup_iff.mpr List.nodup_range
    rw [List.nodup_ofFn] at h1
    exact Finite.injective_iff_bijective.mp fun a b hab => h1 (congrArg Fin.val hab)
  · intro h
    rw [List.perm_ext_iff_of_nodup (List.nodup_ofFn.mpr fun a b hab => h.1 (Fin.ext hab)) List.nodup_range]
    intro a
    rw [List.mem_ofFn, List.mem_range]
    constructor
    · rintro ⟨i, rfl⟩
      exact (f i).2
    · intro ha
      obtain ⟨i, hi⟩ := h.2 ⟨a, ha⟩
      exact ⟨i, congrArg Fin.val hi⟩

end RandomGroups

open RandomGroups

/-- C187: random initialisation of k-means on `n` samples in `k` groups, numbered from 0: the share of the shuffles for which the samples
taken as centroids are one of each group is `k!` times the product of the sizes of the groups over `n (n - 1) ... (n - k + 1)`. -/
theorem C187_one_of_each (G : List Nat) (k : Nat) (hG : ∀ a, a ∈ G ↔ a < k) (hk : k ≤ G.length) :
    shareOf (fun d : Draws G.length => (((permutation d.seq G.length).take k).map (G.getD · 0)).Perm (List.range k)) =
      k.factorial * (∏ a ∈ Finset.range k, (G.count a : ℝ)) / (G.length.descFactorial k : ℝ) := by
  classical
  have hG' : ∀ a ∈ G, a < k := fun a => (hG a).mp
  let g : Fin G.length → Fin k := fun i => ⟨G[i], hG' _ (List.getElem_mem _)⟩
  have hev : ∀ d : Draws G.length, (((permutation d.seq G.length).take k).map (G.getD · 0)).Perm (List.range k) ↔
      Function.Bijective fun i : Fin k => g (Sampling.order d (Fin.castLE hk i)) := by
    intro d
    rw [first_groups G hk hG' d]
    exact perm_range fun i : Fin k => g (Sampling.order d (Fin.castLE hk i))
  have hprod : ((∏ a : Fin k, (Finset.univ.filter fun i => g i = a).card : Nat) : ℝ) = (∏ a ∈ Finset.range k, (G.count a : ℝ)) := by
    rw [Finset.prod_range]
    push_cast
    refine Finset.prod_congr rfl fun a _ => ?_
    rw [← card_group G a.val]
    congr 2
    ext i
    simp only [Finset.mem_filter, Finset.mem_univ, true_and, g, Fin.ext_iff]
  have hfac : (0 : ℝ) < (G.length - k).factorial := by exact_mod_cast Nat.factorial_pos _
  rw [HoldOut.shareOf_eq]
  unfold averageDraws
  simp only [hev]
  rw [Function.Bijective.sum_comp Sampling.order_bijective (fun s => if Function.Bijective fun i : Fin k => g (s (Fin.castLE hk i)) then (1 : ℝ) else 0),
    Finset.sum_boole, count hk g, C111_choices, ← Nat.factorial_mul_descFactorial hk]
  push_cast at hprod ⊢
  rw [hprod, mul_comm, mul_div_mul_left _ _ hfac.ne']


/-- Example for `C187_one_of_each`: three groups of sizes 3, 2 and 1: three tenths of the shuffles. -/
example : shareOf (fun d : Draws [0, 1, 0, 1, 2, 0].length =>
    (((permutation d.seq [0, 1, 0, 1, 2, 0].length).take 3).map (([0, 1, 0, 1, 2, 0] : List Nat).getD · 0)).Perm (List.range 3)) = 3 / 10 := by
  rw [C187_one_of_each [0, 1, 0, 1, 2, 0] 3 (by intro a; simp only [List.mem_cons, List.not_mem_nil, or_false]; omega) (by simp)]
  norm_num [Finset.prod_range_succ, Nat.descFactorial, Nat.factorial]

/-- C187: if the samples of one group are at most `δ` apart and samples of different groups more than `2 δ` apart, then k-means with random
initialisation and one iteration or more, whatever the tolerance, finds the groups for at least this share of the shuffles. -/
theorem C187_groups (checked : Bool) (stop : List (List ℝ) → Bool) (m : Nat) (X : DMat ℝ) (hx : X.WF)
    (hck : checked = false ∨ X.ncols = 1) (G : List Nat) (hG : G.length = X.nrows) (δ : ℝ) (hsep : WellSeparated δ X.rows G)
    (k : Nat) (hgr : ∀ a, a ∈ G ↔ a < k) (hk0 : 0 < k) (hk : k ≤ X.nrows) :
    k.factorial * (∏ a ∈ Finset.range k, (G.count a : ℝ)) / (X.nrows.descFactorial k : ℝ) ≤
      shareOf (fun d : Draws X.nrows => FindsGroups G (do
        let C ← fitFrom checked stop (m + 1) X (initRandom (permutation d.seq X.nrows) k X)
        predict C X)) := by
  have h1 := C187_one_of_each G k hgr (by omega)
  rw [hG] at h1
  rw [← h1]
  refine HoldOut.shareOf_mono fun d hd => ?_
  obtain ⟨C, labels, hC, -, hl, hll, hiff⟩ := C175_random checked stop m X hx hck G hG δ hsep (permutation d.seq X.nrows)
    (permutation_perm d.seq X.nrows) k hk0 hk (hd.nodup_iff.mpr List.nodup_range) fun a ha =>
      hd.mem_iff.mpr (List.mem_range.mpr ((hgr a).mp ha))
  refine ⟨labels, ?_, by rw [hll, hG], hiff⟩
  rw [hC, Res.bind_ok, hl]

namespace RandomGroups

/-- Two groups of two samples on a line. -/
def fourRows : DMat ℝ := ⟨1, [[0], [10], [2], [11]]⟩

theorem fourRows_wf : fourRows.WF := by
  intro r hr
  simp only [fourRows, List.mem_cons, List.not_mem_nil, or_false] at hr
  rcases hr with rfl | rfl | rfl | rfl <;> rfl

theorem fourRows_separated : WellSeparated 2 fourRows.rows [0, 1, 0, 1] := by
  have hs : ∀ a b : ℝ, apart [a] [b] = |a - b| := by
    intro a b
    simp [apart, sqDist, Real.sqrt_sq_eq_abs]
  intro e he f hf
  simp only [fourRows, List.zip_cons_cons, List.zip_nil_right, List.mem_cons, List.not_mem_nil, or_false] at he hf
  rcases he with rfl | rfl | rfl | rfl <;> rcases hf with rfl | rfl | rfl | rfl <;> norm_num [hs, abs_of_nonneg, abs_of_neg]

end RandomGroups

/-- Example for C187: two groups of two samples on a line: for at least two thirds of the shuffles. -/
example : 2 / 3 ≤ shareOf (fun d : Draws fourRows.nrows => FindsGroups [0, 1, 0, 1] (do
    let C ← fitFrom true (fun _ => false) 5 fourRows (initRandom (permutation d.seq fourRows.nrows) 2 fourRows)
    predict C fourRows)) := by
  have h := C187_groups true (fun _ => false) 4 fourRows fourRows_wf (Or.inr rfl) [0, 1, 0, 1] rfl 2 fourRows_separated
    2 (by intro a; simp only [List.mem_cons, List.not_mem_nil, or_false]; omega) (by norm_num) (by norm_num [DMat.nrows, fourRows])
  refine le_trans (le_of_eq ?_) h
  have hn : fourRows.nrows = 4 := rfl
  rw [hn]
  norm_num [Finset.prod_range_succ, Nat.descFactorial, Nat.factorial]

end OpenML
