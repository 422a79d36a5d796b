import Verif.Lemmas.KDNear
import Verif.Props.Rounding

/-!
# Queries of k-d trees with rounding (C137)
-/

namespace OpenML.Spec

/-- The norms of the three metrics. -/
noncomputable def lpNorm : Rounding.Order → List ℝ → ℝ
  | .l1, v => (v.map fun a => |a|).sum
  | .l2, v => Real.sqrt ((v.map fun a => a ^ 2).sum)
  | .linf, v => (v.map fun a => |a|).foldr max 0

end OpenML.Spec

namespace OpenML.Rounding

open Spec

theorem abs_rnd_rel (A : Arith) (a : ℝ) : Rel A 1 |A.rnd a| |a| := by
  have h0 := A.err a
  have h1 := abs_sub_abs_le_abs_sub (A.rnd a) a
  have h2 := abs_sub_abs_le_abs_sub a (A.rnd a)
  rw [abs_sub_comm] at h2
  refine ⟨abs_nonneg _, ?_, ?_⟩ <;> rw [pow_one] <;> linarith

theorem foldl_max_foldr (l : List ℝ) : ∀ a b : ℝ, l.foldl max (max a b) = max a (l.foldl max b) := by
  induction l with
  | nil => intro a b; rfl
  | cons c l ih => intro a b; rw [List.foldl_cons, List.foldl_cons, max_assoc, ih]

theorem foldl_eq_foldr (l : List ℝ) : l.foldl max 0 = l.foldr max 0 := by
  induction l with
  | nil => rfl
  | cons c l ih => rw [List.foldl_cons, List.foldr_cons, max_comm 0 c, foldl_max_foldr, ih]

theorem Rel.max {A : Arith} {k : Nat} {x' x y' y : ℝ} (h : Rel A k x' x) (h' : Rel A k y' y) : Rel A k (Max.max x' y') (Max.max x y) := by
  have hu : 0 ≤ (1 - A.u) ^ k := pow_nonneg (by linarith [A.lt_one]) k
  have hu' : 0 ≤ (1 + A.u) ^ k := pow_nonneg (by linarith [A.nonneg]) k
  refine ⟨le_max_of_le_left h.1, ?_, ?_⟩
  · rw [mul_max_of_nonneg _ _ hu]
    exact max_le_max h.2.1 h'.2.1
  · rw [mul_max_of_nonneg _ _ hu']
    exact max_le_max h.2.2 h'.2.2

/-- A computed norm and the exact one. -/
theorem norm_rel {A : Arith} {o : Order} {v : List ℝ} {s : ℝ} (h : Norm A o v s) : Rel A (v.length + 2) s (lpNorm o v) := by
  cases o with
  | l1 =>
    have h' := summed_rel (k := 1) (A := A) h (x := v.map fun a => |a|) (by
      clear h
      induction v with
      | nil => exact .nil
      | cons a v ih => exact .cons (abs_rnd_rel A a) ih)
    rw [List.length_map] at h'
    exact h'.mono (by omega)
  | linf =>
    have h1 : s = (v.map fun a => |A.rnd a|).foldr max 0 := (show s = _ from h).trans (foldl_eq_foldr _)
    subst h1
    have h2 : Rel A 1 ((v.map fun a => |A.rnd a|).foldr max 0) (lpNorm .linf v) := by
      clear h
      unfold lpNorm
      induction v with
      | nil => exact ⟨le_rfl, by simp, by simp⟩
      | cons a v ih => exact (abs_rnd_rel A a).max ih
    exact h2.mono (by omega)
  | l2 =>
    obtain ⟨ts, q, hts, hq, rfl⟩ := h
    have hd : Dist A v (List.replicate v.length 0) (A.rnd (Real.sqrt q)) := by
      refine ⟨by simp, ts, q, ?_, hq, rfl⟩
      clear hq
      induction hts with
      | nil => exact .nil
      | cons h _ ih => exact .cons (by simpa using h) ih
    obtain ⟨h0, h1⟩ := dist_rel hd
    have hsq : sqDist v (List.replicate v.length 0) = (v.map fun a => a ^ 2).sum := by
      unfold sqDist
      clear hts hd h1
      congr 1
      induction v with
      | nil => rfl
      | cons a v ih => simp [List.replicate_succ, ih]
    rw [hsq] at h1
    have hu : 0 ≤ 1 - A.u := by linarith [A.lt_one]
    have hu' : 1 ≤ 1 + A.u := by linarith [A.nonneg]
    have hs := h1.1
    refine ⟨Real.sqrt_nonneg _, ?_, ?_⟩
    · refine abs_le_of_sq_le_sq' ?_ h0 |>.2
      rw [mul_pow, show lpNorm .l2 v = Real.sqrt ((v.map fun a => a ^ 2).sum) from rfl, Real.sq_sqrt hs]
      refine le_trans (mul_le_mul_of_nonneg_right ?_ hs) h1.2.1
      rw [← pow_mul]
      exact pow_le_pow_of_le_one hu (by linarith [A.nonneg]) (by omega)
    · refine abs_le_of_sq_le_sq' ?_ (mul_nonneg (pow_nonneg (by linarith) _) (Real.sqrt_nonneg _)) |>.2
      rw [mul_pow, Real.sq_sqrt hs]
      refine h1.2.2.trans (mul_le_mul_of_nonneg_right ?_ hs)
      rw [← pow_mul]
      exact pow_le_pow_right₀ hu' (by omega)

theorem lpNorm_mono (o : Order) {u v : List ℝ} (h : List.Forall₂ (fun a b => |a| ≤ |b|) u v) : lpNorm o u ≤ lpNorm o v := by
  cases o with
  | l1 =>
    unfold lpNorm
    induction h with
    | nil => exact le_rfl
    | cons h _ ih => simpa using add_le_add h ih
  | l2 =>
    refine Real.sqrt_le_sqrt ?_
    induction h with
    | nil => exact le_rfl
    | cons h _ ih => simpa using add_le_add (sq_le_sq.mpr h) ih
  | linf =>
    unfold lpNorm
    induction h with
    | nil => exact le_rfl
    | cons h _ ih => exact max_le_max h ih

/-- The factor between two computations of a norm. -/
noncomputable def factor (A : Arith) (n : Nat) : ℝ := ((1 + A.u) / (1 - A.u)) ^ (n + 2)

theorem one_le_factor (A : Arith) (n : Nat) : 1 ≤ factor A n :=
  one_le_pow₀ ((one_le_div (by linarith [A.lt_one])).mpr (by linarith [A.nonneg]))

theorem near_monotone {A : Arith} {o : Order} {n : Nat} {nrmP nrm : List ℝ → ℝ} (hP : ∀ v, Norm A o v (nrmP v))
    (hL : ∀ v, Norm A o v (nrm v)) : NearMonotone n (factor A n) nrmP nrm := by
  intro u v hv huv
  have h1 := norm_rel (hP u)
  have h2 := norm_rel (hL v)
  have hl : u.length = n := by rw [huv.length_eq, hv]
  rw [hl] at h1
  rw [hv] at h2
  have hp : 0 < (1 - A.u) ^ (n + 2) := pow_pos (by linarith [A.lt_one]) _
  have hp' : 0 ≤ (1 + A.u) ^ (n + 2) := pow_nonneg (by linarith [A.nonneg]) _
  have h3 := h1.2.2.trans (mul_le_mul_of_nonneg_left (lpNorm_mono o huv) hp')
  have h4 := mul_le_mul_of_nonneg_left h2.2.1 hp'
  rw [factor, div_pow, div_mul_eq_mul_div, le_div_iff₀ hp]
  nlinarith

theorem abs_rnd_mono {A : Arith} (hm : Monotone A.rnd) (hodd : ∀ x, A.rnd (-x) = -A.rnd x) {a b : ℝ} (h : |a| ≤ |b|) :
    |A.rnd a| ≤ |A.rnd b| := by
  have habs : ∀ x, |A.rnd x| = A.rnd |x| := by
    intro x
    have h0 : A.rnd 0 = 0 := by simpa using A.err 0
    rcases le_total 0 x with hx | hx
    · rw [abs_of_nonneg hx, abs_of_nonneg (h0.symm.le.trans (hm hx))]
    · rw [abs_of_nonpos hx, hodd, abs_of_nonpos ((hm hx).trans h0.le)]
  rw [habs, habs]
  exact hm h

theorem eval_mono {A : Arith} (hm : Monotone A.rnd) (b : Brackets) {u v : List ℝ} (h : List.Forall₂ (· ≤ ·) u v) :
    b.eval A u ≤ b.eval A v := by
  induction b with
  | entry i =>
    unfold Brackets.eval
    rw [List.getD_eq_getElem?_getD, List.getD_eq_getElem?_getD]
    by_cases hi : i < u.length
    · have hi' : i < v.length := h.length_eq ▸ hi
      rw [List.getElem?_eq_getElem hi, List.getElem?_eq_getElem hi']
      exact h.get hi hi'
    · have hi' : ¬i < v.length := h.length_eq ▸ hi
      rw [List.getElem?_eq_none (by omega), List.getElem?_eq_none (by omega)]
  | add a b iha ihb => exact hm (add_le_add iha ihb)

theorem forall_map {f : ℝ → ℝ} (hf : ∀ a b : ℝ, |a| ≤ |b| → f a ≤ f b) {u v : List ℝ} (h : List.Forall₂ (fun a b => |a| ≤ |b|) u v) :
    List.Forall₂ (· ≤ ·) (u.map f) (v.map f) := by
  induction h with
  | nil => exact .nil
  | cons h _ ih => exact .cons (hf _ _ h) ih

theorem normBy_mono {A : Arith} (hm : Monotone A.rnd) (hodd : ∀ x, A.rnd (-x) = -A.rnd x) (fused : Bool) (order : Nat → Brackets)
    (o : Order) : MonotoneNorm (normBy A fused order o) := by
  intro u v h
  have hlen := h.length_eq
  have habs := forall_map (f := fun a => |A.rnd a|) (fun a b hab => abs_rnd_mono hm hodd hab) h
  cases o with
  | l1 =>
    simp only [normBy]
    rw [hlen]
    exact eval_mono hm _ habs
  | l2 =>
    simp only [normBy]
    rw [hlen]
    refine hm (Real.sqrt_le_sqrt (eval_mono hm _ (forall_map ?_ h)))
    intro a b hab
    have h2 : A.rnd a * A.rnd a ≤ A.rnd b * A.rnd b := by
      rw [← sq, ← sq]
      exact sq_le_sq.mpr (abs_rnd_mono hm hodd hab)
    cases fused
    · exact hm h2
    · exact h2
  | linf =>
    simp only [normBy]
    rw [foldl_eq_foldr, foldl_eq_foldr]
    clear h hlen
    generalize u.map (fun a => |A.rnd a|) = u' at habs ⊢
    generalize v.map (fun a => |A.rnd a|) = v' at habs ⊢
    induction habs with
    | nil => exact le_rfl
    | cons h _ ih => exact max_le_max h ih

theorem summed_perm {A : Arith} {l : List ℝ} {s : ℝ} (h : Summed A l s) {m : List ℝ} (hp : l.Perm m) : Summed A m s := by
  cases h with
  | nil => rw [hp.symm.eq_nil]; exact .nil
  | single => rw [List.perm_singleton.mp hp.symm]; exact .single _
  | add h1 h2 h3 h4 h5 => exact .add h1 h2 h3 h4 (hp.symm.trans h5)

theorem leaves_ne_nil (b : Brackets) : b.leaves ≠ [] := by
  induction b with
  | entry i => simp [Brackets.leaves]
  | add a b iha _ => simp [Brackets.leaves, iha]

theorem eval_summed (A : Arith) (ts : List ℝ) (b : Brackets) : Summed A (b.leaves.map fun i => ts.getD i 0) (b.eval A ts) := by
  induction b with
  | entry i => exact .single _
  | add a b iha ihb =>
    exact .add iha ihb (by simp [leaves_ne_nil]) (by simp [leaves_ne_nil]) (by rw [Brackets.leaves, List.map_append])

theorem eval_summed_of_perm (A : Arith) (ts : List ℝ) (b : Brackets) (h : b.leaves.Perm (List.range ts.length)) :
    Summed A ts (b.eval A ts) := by
  have h1 := summed_perm (eval_summed A ts b) (h.map _)
  have h2 : (List.range ts.length).map (fun i => ts.getD i 0) = ts := by
    apply List.ext_getElem
    · simp
    · intro i h1 h2
      simp [List.getElem?_eq_getElem h2]
  rwa [h2] at h1

/-- A norm computed in an order that uses every entry once is a possible one. -/
theorem normBy_norm (A : Arith) (fused : Bool) (order : Nat → Brackets) (o : Order) (v : List ℝ)
    (h : (order v.length).leaves.Perm (List.range v.length)) : Norm A o v (normBy A fused order o v) := by
  cases o with
  | l1 => exact eval_summed_of_perm A _ _ (by simpa using h)
  | linf => rfl
  | l2 =>
    refine ⟨_, _, ?_, eval_summed_of_perm A (v.map fun a => if fused then A.rnd a * A.rnd a else A.rnd (A.rnd a * A.rnd a)) _
      (by simpa using h), rfl⟩
    clear h
    induction v with
    | nil => exact .nil
    | cons a v ih =>
      refine .cons ?_ ih
      cases fused
      · exact Or.inl rfl
      · exact Or.inr rfl

theorem round_mono' {x y : ℝ} (h : x ≤ y) : round x ≤ round y := by
  rw [round_eq, round_eq]
  exact Int.floor_mono (by linarith)

theorem binary_mono_pos {p : Nat} {hp : 0 < p} {x y : ℝ} (hx : 0 < x) (h : x ≤ y) : (binary p hp).rnd x ≤ (binary p hp).rnd y := by
  have hy : 0 < y := hx.trans_le h
  show (round (x / 2 ^ (Int.log 2 |x| + 1 - p)) : ℝ) * 2 ^ (Int.log 2 |x| + 1 - p) ≤
    (round (y / 2 ^ (Int.log 2 |y| + 1 - p)) : ℝ) * 2 ^ (Int.log 2 |y| + 1 - p)
  rw [abs_of_pos hx, abs_of_pos hy]
  have hlog : Int.log 2 x ≤ Int.log 2 y := Int.log_mono_right hx h
  have hpx := two_zpow_pos (Int.log 2 x + 1 - p)
  have hpy := two_zpow_pos (Int.log 2 y + 1 - p)
  rcases hlog.eq_or_lt with he | hlt
  · rw [he]
    refine mul_le_mul_of_nonneg_right ?_ hpy.le
    exact_mod_cast round_mono' ((div_le_div_iff_of_pos_right hpy).mpr h)
  · have h1 : (round (x / 2 ^ (Int.log 2 x + 1 - p)) : ℝ) ≤ 2 ^ p := by
      have hle : x / 2 ^ (Int.log 2 x + 1 - p) ≤ ((2 ^ p : ℤ) : ℝ) := by
        rw [div_le_iff₀ hpx]
        push_cast
        rw [← zpow_natCast, ← zpow_add₀ (by norm_num), show (p : ℤ) + (Int.log 2 x + 1 - p) = Int.log 2 x + 1 by ring]
        exact_mod_cast (Int.lt_zpow_succ_log_self (b := 2) (by norm_num) x).le
      have := round_mono' hle
      rw [round_intCast] at this
      exact_mod_cast this
    have h2 : (2 : ℝ) ^ (p - 1) ≤ round (y / 2 ^ (Int.log 2 y + 1 - p)) := by
      have hle : ((2 ^ (p - 1) : ℤ) : ℝ) ≤ y / 2 ^ (Int.log 2 y + 1 - p) := by
        rw [le_div_iff₀ hpy]
        push_cast
        rw [← zpow_natCast, ← zpow_add₀ (by norm_num), show ((p - 1 : ℕ) : ℤ) + (Int.log 2 y + 1 - p) = Int.log 2 y by omega]
        exact_mod_cast Int.zpow_log_le_self (b := 2) (by norm_num) hy
      have := round_mono' hle
      rw [round_intCast] at this
      exact_mod_cast this
    calc _ ≤ (2 : ℝ) ^ p * 2 ^ (Int.log 2 x + 1 - p) := mul_le_mul_of_nonneg_right h1 hpx.le
      _ = 2 ^ (Int.log 2 x + 1) := by rw [← zpow_natCast, ← zpow_add₀ (by norm_num)]; congr 1; ring
      _ ≤ 2 ^ Int.log 2 y := zpow_le_zpow_right₀ (by norm_num) hlt
      _ = 2 ^ (p - 1) * 2 ^ (Int.log 2 y + 1 - p) := by
        rw [← zpow_natCast, ← zpow_add₀ (by norm_num)]; congr 1; omega
      _ ≤ _ := mul_le_mul_of_nonneg_right h2 hpy.le

theorem binary_zero {p : Nat} {hp : 0 < p} : (binary p hp).rnd 0 = 0 := by
  simpa using (binary p hp).err 0

theorem binary_nonneg {p : Nat} {hp : 0 < p} {x : ℝ} (hx : 0 ≤ x) : 0 ≤ (binary p hp).rnd x := by
  have h := (binary p hp).err x
  rw [abs_of_nonneg hx] at h
  have := abs_le.mp h
  nlinarith [(binary p hp).lt_one]

/-- `binary` with ties away from zero. -/
noncomputable def binaryAway (p : Nat) (hp : 0 < p) : Arith where
  rnd x := if x < 0 then -(binary p hp).rnd (-x) else (binary p hp).rnd x
  u := (binary p hp).u
  nonneg := (binary p hp).nonneg
  lt_one := (binary p hp).lt_one
  err x := by
    split
    · have := (binary p hp).err (-x)
      rwa [abs_neg, show (binary p hp).rnd (-x) - -x = -(-(binary p hp).rnd (-x) - x) by ring, abs_neg] at this
    · exact (binary p hp).err x

theorem binaryAway_odd (p : Nat) (hp : 0 < p) (x : ℝ) : (binaryAway p hp).rnd (-x) = -(binaryAway p hp).rnd x := by
  show (if -x < 0 then -(binary p hp).rnd (- -x) else (binary p hp).rnd (-x)) =
    -(if x < 0 then -(binary p hp).rnd (-x) else (binary p hp).rnd x)
  rcases lt_trichotomy x 0 with h | h | h
  · rw [if_neg (by linarith), if_pos h, neg_neg]
  · subst h
    simp [binary_zero]
  · rw [if_pos (by linarith), if_neg (by linarith), neg_neg]

theorem binaryAway_mono (p : Nat) (hp : 0 < p) : Monotone (binaryAway p hp).rnd := by
  intro x y h
  show (if x < 0 then -(binary p hp).rnd (-x) else (binary p hp).rnd x) ≤ (if y < 0 then -(binary p hp).rnd (-y) else (binary p hp).rnd y)
  by_cases hy : y < 0
  · rw [if_pos hy, if_pos (h.trans_lt hy)]
    exact neg_le_neg (binary_mono_pos (by linarith) (by linarith))
  · rw [if_neg hy]
    by_cases hx : x < 0
    · rw [if_pos hx]
      exact (neg_nonpos.mpr (binary_nonneg (by linarith))).trans (binary_nonneg (by linarith))
    · rw [if_neg hx]
      rcases (not_lt.mp hx).eq_or_lt with h0 | h0
      · rw [← h0, binary_zero]
        exact binary_nonneg (by linarith)
      · exact binary_mono_pos h0 h

end OpenML.Rounding

namespace OpenML

open Rounding Spec KDTree

/-- C137: k-d tree queries with rounding, where the distances of boxes and rows are added up in orders of their own. The answer consists of
`k` different rows with their computed distances in order, and in exact arithmetic no row left out is closer than one of them by more than a
factor close to one. Radius queries report different rows with computed distances up to the radius, among them all whose exact
distance is less than the radius by such a factor. -/
theorem C137_kd_tree (A : Arith) (o : Order) (nrmP nrm : List ℝ → ℝ) (hP : ∀ v, Norm A o v (nrmP v)) (hL : ∀ v, Norm A o v (nrm v))
    (x : DMat ℝ) (hx : x.WF) (leafSize : Nat) (nodes : List (Node ℝ)) (hb : build x leafSize = .ok nodes)
    (hthree : ∀ p ∈ kdLeaves nodes, 3 ≤ p.1.length) (hw : FirstFeatureWidest x.ncols x.rows) (q : List ℝ) (hq : q.length = x.ncols) :
    (∀ (Q : PQueue (WithTop ℝ × Nat)), Q.Lawful Prod.fst → ∀ k, 1 ≤ k → k ≤ x.nrows →
      ∃ answer, querySingleWith nrmP nrm Q nodes q k = .ok answer ∧ answer.length = k ∧ answer.Pairwise (fun a b => a.1 ≤ b.1) ∧
        (answer.map Prod.snd).Nodup ∧ (∀ e ∈ answer, ∃ p, x.rows[e.2]? = some p ∧ Norm A o (List.zipWith (· - ·) p q) (e.1.untopD 0)) ∧
        ∀ (i : Nat) (p : List ℝ), x.rows[i]? = some p → i ∉ answer.map Prod.snd → ∀ e ∈ answer, ∀ r, x.rows[e.2]? = some r →
          (1 - A.u) ^ (2 * (x.ncols + 2)) * lpNorm o (List.zipWith (· - ·) r q) ≤
            (1 + A.u) ^ (2 * (x.ncols + 2)) * lpNorm o (List.zipWith (· - ·) p q)) ∧
    ∀ radius : ℝ, ∃ answer, radiusSingleWith nrmP nrm nodes q radius = .ok answer ∧ (answer.map Prod.snd).Nodup ∧
      (∀ e ∈ answer, e.1 ≤ radius ∧ ∃ p, x.rows[e.2]? = some p ∧ Norm A o (List.zipWith (· - ·) p q) e.1) ∧
      ∀ (i : Nat) (p : List ℝ), x.rows[i]? = some p →
        (1 + A.u) ^ (2 * (x.ncols + 2)) * lpNorm o (List.zipWith (· - ·) p q) < (1 - A.u) ^ (x.ncols + 2) * radius →
          i ∈ answer.map Prod.snd := by
  have hn := near_monotone (n := x.ncols) hP hL
  have hpos : ∀ v, 0 ≤ nrm v := fun v => (norm_rel (hL v)).nonneg
  have hp : 0 < (1 - A.u) ^ (x.ncols + 2) := pow_pos (by linarith [A.lt_one]) _
  have hp' : 0 < (1 + A.u) ^ (x.ncols + 2) := pow_pos (by linarith [A.nonneg]) _
  have hrel : ∀ p ∈ x.rows, Rel A (x.ncols + 2) (distance nrm p q) (lpNorm o (List.zipWith (· - ·) p q)) := by
    intro p hp
    have := norm_rel (hL (List.zipWith (· - ·) p q))
    rwa [List.length_zipWith, hx p hp, hq, Nat.min_self] at this
  constructor
  · intro Q hQ k hk hkn
    obtain ⟨answer, h1, h2⟩ := query_near x hx leafSize nodes hb hthree (one_le_factor A x.ncols) hpos hn hQ hw q hq k hk hkn
    refine ⟨answer, h1, h2.length, h2.sorted, h2.distinct, ?_, ?_⟩
    · intro e he
      obtain ⟨p, hp1, hp2⟩ := h2.true_distance e he
      exact ⟨p, hp1, by rw [hp2]; exact hL _⟩
    · intro i p hpi hni e he r hr
      have h3 := h2.nearest i p hpi hni e he
      obtain ⟨r', hr', he'⟩ := h2.true_distance e he
      rw [hr] at hr'
      cases hr'
      rw [he'] at h3
      have h4 := WithTop.coe_le_coe.mp h3
      have h5 := (hrel r (List.mem_of_getElem? hr)).2.1
      have h6 := (hrel p (List.mem_of_getElem? hpi)).2.2
      rw [factor, div_pow, div_mul_eq_mul_div, le_div_iff₀ hp] at h4
      have h7 := mul_le_mul_of_nonneg_right h5 hp.le
      have h8 := mul_le_mul_of_nonneg_left h6 hp'.le
      have h9 := h7.trans (h4.trans h8)
      rw [mul_comm 2, pow_mul, pow_mul]
      nlinarith [h9]
  · intro radius
    obtain ⟨answer, h1, h2, h3, h4⟩ := radius_near x hx leafSize nodes hb hn hw q hq radius
    refine ⟨answer, h1, h2, fun e he => ⟨(h3 e he).1, ?_⟩, ?_⟩
    · obtain ⟨p, hp1, hp2⟩ := (h3 e he).2
      exact ⟨p, hp1, by rw [hp2]; exact hL _⟩
    · intro i p hpi hlt
      have h6 := (hrel p (List.mem_of_getElem? hpi)).2.2
      have hfd : factor A x.ncols * distance nrm p q < radius := by
        rw [factor, div_pow, div_mul_eq_mul_div, div_lt_iff₀ hp]
        have h8 := mul_le_mul_of_nonneg_left h6 hp'.le
        rw [two_mul, pow_add, mul_assoc] at hlt
        linarith [mul_comm radius ((1 - A.u) ^ (x.ncols + 2))]
      have hle : distance nrm p q ≤ factor A x.ncols * distance nrm p q :=
        le_mul_of_one_le_left (hpos _) (one_le_factor A x.ncols)
      exact List.mem_map.mpr ⟨_, h4 i p hpi (hle.trans hfd.le) hfd, rfl⟩

/-- C137: if both distances are computed in the same order and rounding is monotone and symmetric, nothing is lost: the answer consists of
the nearest rows by computed distance, as if every row had been compared. The computed distance is one of those of `C137_kd_tree`
if the order uses every entry once. -/
theorem C137_same_order (A : Arith) (hm : Monotone A.rnd) (hodd : ∀ x, A.rnd (-x) = -A.rnd x) (fused : Bool) (order : Nat → Brackets)
    (o : Order) (x : DMat ℝ) (horder : (order x.ncols).leaves.Perm (List.range x.ncols)) (hx : x.WF) (leafSize : Nat)
    (nodes : List (Node ℝ)) (hb : build x leafSize = .ok nodes)
    (hthree : ∀ p ∈ kdLeaves nodes, 3 ≤ p.1.length) (hw : FirstFeatureWidest x.ncols x.rows) {Q : PQueue (WithTop ℝ × Nat)}
    (hQ : Q.Lawful Prod.fst) (queries : List (List ℝ)) (hq : ∀ q ∈ queries, q.length = x.ncols) (k : Nat) (hk : 1 ≤ k) (hkn : k ≤ x.nrows) :
    ∃ dist : List ℝ → ℝ, (∀ v, v.length = x.ncols → Norm A o v (dist v)) ∧ dist = normBy A fused order o ∧
      ∃ answers, query dist Q nodes queries k = .ok answers ∧
        List.Forall₂ (fun q a => IsKNearest dist x.rows q k a) queries answers :=
  ⟨normBy A fused order o, fun v hv => normBy_norm A fused order o v (hv ▸ horder), rfl,
    C16_k_nearest x hx leafSize nodes hb hthree (normBy_mono hm hodd fused order o) hQ hw queries hq k hk hkn⟩

/-- Points for the examples: six rows of two features. -/
def kdRounded : DMat ℝ := ⟨2, [[0, 0], [10, 1], [20, 2], [30, 0], [40, 1], [50, 2]]⟩

theorem kdRounded_wf : kdRounded.WF := by
  intro r hr
  simp only [kdRounded, List.mem_cons, List.not_mem_nil, or_false] at hr
  rcases hr with rfl | rfl | rfl | rfl | rfl | rfl <;> rfl

theorem kdRounded_widest : FirstFeatureWidest kdRounded.ncols kdRounded.rows := by
  have h : ∀ p ∈ kdRounded.rows, ∀ a ∈ p, 0 ≤ a ∧ a ≤ 50 := by
    intro p hp a ha
    simp only [kdRounded, List.mem_cons, List.not_mem_nil, or_false] at hp
    rcases hp with rfl | rfl | rfl | rfl | rfl | rfl <;>
      simp only [List.mem_cons, List.not_mem_nil, or_false] at ha <;> rcases ha with rfl | rfl <;> norm_num
  intro j _ p hp q hq a b ha hb
  have h1 := h p hp a (List.mem_of_getElem? ha)
  have h2 := h q hq b (List.mem_of_getElem? hb)
  refine ⟨[0, 0], by simp [kdRounded], [50, 2], by simp [kdRounded], 0, 50, rfl, rfl, ?_⟩
  rw [abs_le]
  norm_num
  constructor <;> linarith

/-- Every vector has a computed norm. -/
theorem norm_exists (A : Arith) (o : Order) (v : List ℝ) : ∃ s, Norm A o v s := by
  have hsum : ∀ l : List ℝ, ∃ s, Summed A l s := by
    intro l
    induction l with
    | nil => exact ⟨0, .nil⟩
    | cons a l ih =>
      obtain ⟨s, hs⟩ := ih
      cases l with
      | nil => exact ⟨a, .single a⟩
      | cons b l => exact ⟨_, .add (.single a) hs (by simp) (by simp) (List.Perm.refl _)⟩
  cases o with
  | l1 => exact hsum _
  | linf => exact ⟨_, rfl⟩
  | l2 =>
    obtain ⟨q, hq⟩ := hsum (v.map fun a => A.rnd (A.rnd a * A.rnd a))
    refine ⟨_, _, q, ?_, hq, rfl⟩
    clear hq
    induction v with
    | nil => exact .nil
    | cons a v ih => exact .cons (Or.inl rfl) ih

/-- Beside C137: a tree and a query in double precision that meet the hypotheses, for each metric. -/
example (o : Order) : ∃ (nrmP nrm : List ℝ → ℝ) (nodes : List (Node ℝ)), (∀ v, Norm (binary 53 (by norm_num)) o v (nrmP v)) ∧
    (∀ v, Norm (binary 53 (by norm_num)) o v (nrm v)) ∧ build kdRounded 5 = .ok nodes ∧ (∀ p ∈ kdLeaves nodes, 3 ≤ p.1.length) ∧
    ∃ answer, querySingleWith nrmP nrm (listQueue Prod.fst) nodes [12, 1] 2 = .ok answer ∧ answer.length = 2 := by
  choose f hf using norm_exists (binary 53 (by norm_num)) o
  obtain ⟨nodes, hb, -⟩ := C15_build kdRounded kdRounded_wf (by simp [kdRounded]) (by simp [kdRounded, DMat.nrows]) 5 (by norm_num)
  have h3 := C15_leaves_of_three kdRounded kdRounded_wf (by simp [kdRounded]) (by simp [kdRounded, DMat.nrows]) 5 (by norm_num) nodes hb
  obtain ⟨answer, h1, h2, -⟩ := (C137_kd_tree _ o f f hf hf kdRounded kdRounded_wf 5 nodes hb h3 kdRounded_widest [12, 1] rfl).1
    (listQueue Prod.fst) (listQueue_lawful _) 2 (by norm_num) (by simp [kdRounded, DMat.nrows])
  exact ⟨f, f, nodes, hf, hf, hb, h3, answer, h1, h2⟩

/-- Beside C137: rounding with ties away from zero meets the hypotheses of the second theorem. -/
example : Monotone (binaryAway 53 (by norm_num)).rnd ∧ (∀ x, (binaryAway 53 (by norm_num)).rnd (-x) = -(binaryAway 53 (by norm_num)).rnd x) ∧
    ∃ nodes answers, build kdRounded 5 = .ok nodes ∧ query (normBy (binaryAway 53 (by norm_num)) true
      (fun _ => .add (.entry 1) (.entry 0)) .l2) (listQueue Prod.fst) nodes [[12, 1], [0, 0]] 2 = .ok answers ∧ answers.length = 2 := by
  obtain ⟨nodes, hb, -⟩ := C15_build kdRounded kdRounded_wf (by simp [kdRounded]) (by simp [kdRounded, DMat.nrows]) 5 (by norm_num)
  have h3 := C15_leaves_of_three kdRounded kdRounded_wf (by simp [kdRounded]) (by simp [kdRounded, DMat.nrows]) 5 (by norm_num) nodes hb
  obtain ⟨_, -, rfl, answers, h1, h2⟩ := C137_same_order (binaryAway 53 (by norm_num)) (binaryAway_mono _ _) (binaryAway_odd _ _) true
    (fun _ => .add (.entry 1) (.entry 0)) .l2 kdRounded (by simp only [kdRounded, Brackets.leaves]; decide) kdRounded_wf 5 nodes hb h3
    kdRounded_widest (listQueue_lawful Prod.fst)
    [[12, 1], [0, 0]] (by simp [kdRounded]) 2 (by norm_num) (by simp [kdRounded, DMat.nrows])
  exact ⟨binaryAway_mono _ _, binaryAway_odd _ _, nodes, answers, hb, h1, h2.length_eq.symm⟩

end OpenML
