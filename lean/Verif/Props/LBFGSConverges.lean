import Verif.Props.LBFGSRate

/-!
# The bracketing search succeeds, and L-BFGS converges (C139)
-/

namespace OpenML

open SGD (LossFn)
open Spec LBFGS Matrix

set_option linter.unusedSectionVars false

section
variable {α : Type} [Field α] [LinearOrder α] [IsStrictOrderedRing α]

namespace LBFGS

/-- What the tests of a line search say about the slope `ψ` at the step `t`: the loss still falls too steeply after `grow`, and does not
after `shrink`. -/
def Informative (p : SearchParams α) (loss : LossFn α (List α)) (X : DMat α) (y : List α) (f0 m0 : α) (xp d : List α) (ψ : α → α)
    (s1 s2 : α) : Prop :=
  ∀ c t, 0 < t → ∃ v r, probe p loss X y f0 m0 xp d c t = .ok (v, r) ∧ (v = .grow → ψ t < s2) ∧ (v = .shrink → s1 < ψ t)

section
variable {p : SearchParams α} {loss : LossFn α (List α)} {X : DMat α} {y : List α} {f0 m0 : α} {xp d : List α} {ψ : α → α}
  {s1 s2 M : α} (hI : Informative p loss X y f0 m0 xp d ψ s1 s2) (hM : 0 < M)
  (hs12 : s2 < s1)
  (hlip : ∀ l h, 0 ≤ l → l < h → ψ h - ψ l ≤ M * (h - l)) (hmin : 2 * p.minStep * M ≤ s1 - s2)

include hI hM hs12 hlip hmin in
/-- Bisection ends with success. -/
theorem bisection (m B count : Nat) (lo h : α) (h0 : 0 ≤ lo) (hlo : ψ lo < s2) (hlt : lo < h) (hh : s1 < ψ h)
    (hmax : h ≤ p.maxStep) (hB : (h - lo) * M ≤ 2 ^ B * (s1 - s2)) (hm : B ≤ m + 1) :
    ∃ r, searchLoop .bracketing p loss X y f0 m0 xp d m count ((lo + h) / 2) lo (some h) = .ok (some r) := by
  induction m generalizing B count lo h with
  | zero =>
    obtain ⟨v, r, hp, hg, hs⟩ := hI count ((lo + h) / 2) (by linarith)
    rw [searchLoop, hp, Res.bind_ok]
    have hw := hlip lo h h0 hlt
    have hB1 : (h - lo) * M ≤ 2 * (s1 - s2) := by
      have : (2 : α) ^ B ≤ 2 := by
        calc (2 : α) ^ B ≤ 2 ^ 1 := pow_le_pow_right₀ (by norm_num) hm
          _ = 2 := pow_one _
      have h3 : 0 ≤ s1 - s2 := by linarith
      nlinarith
    cases v with
    | accept => exact ⟨r, rfl⟩
    | grow =>
      exfalso
      have h1 := hg rfl
      have h2 := hlip ((lo + h) / 2) h (by linarith) (by linarith)
      nlinarith
    | shrink =>
      exfalso
      have h1 := hs rfl
      have h2 := hlip lo ((lo + h) / 2) h0 (by linarith)
      nlinarith
  | succ m ih =>
    obtain ⟨v, r, hp, hg, hs⟩ := hI count ((lo + h) / 2) (by linarith)
    rw [searchLoop, hp, Res.bind_ok]
    have hw := hlip lo h h0 hlt
    have hmin' : ¬ (lo + h) / 2 < p.minStep := by
      intro hc
      have h1 : (h - lo) / 2 < p.minStep := by linarith
      nlinarith
    have hmax' : ¬ (lo + h) / 2 > p.maxStep := by
      intro hc
      linarith
    have hB' : ∃ B', B = B' + 1 := by
      cases B with
      | zero =>
        exfalso
        rw [pow_zero, one_mul] at hB
        linarith
      | succ B => exact ⟨B, rfl⟩
    obtain ⟨B', rfl⟩ := hB'
    rw [pow_succ] at hB
    cases v with
    | accept => exact ⟨r, rfl⟩
    | grow =>
      rw [if_neg (fun h => by cases h), if_neg hmin', if_neg hmax']
      exact ih B' (count + 1) ((lo + h) / 2) h (by linarith) (hg rfl) (by linarith) hh hmax (by linarith) (by omega)
    | shrink =>
      rw [if_neg (fun h => by cases h), if_neg hmin', if_neg hmax']
      exact ih B' (count + 1) lo ((lo + h) / 2) h0 hlo (by linarith) (hs rfl) (by linarith) (by linarith) (by omega)

include hI hM hs12 hlip hmin in
/-- Doubling steps, and bisection afterwards. -/
theorem expansion {T : α} (hT : ∀ t, T ≤ t → s2 ≤ ψ t) (m A B count : Nat) (lo step : α) (h0 : 0 ≤ lo) (hlo : ψ lo < s2)
    (hlt : lo < step) (hA : T ≤ 2 ^ A * step) (hmins : p.minStep ≤ step) (hmax : 2 ^ A * step ≤ p.maxStep)
    (hB : 2 ^ A * step * M ≤ 2 ^ B * (s1 - s2)) (hm : A + B ≤ m) :
    ∃ r, searchLoop .bracketing p loss X y f0 m0 xp d m count step lo none = .ok (some r) := by
  have hst : 0 < step := by linarith
  induction m generalizing A count lo step with
  | zero =>
    obtain ⟨rfl, rfl⟩ : A = 0 ∧ B = 0 := by omega
    rw [pow_zero, one_mul] at hA hB hmax
    obtain ⟨v, r, hp, hg, hs⟩ := hI count step hst
    rw [searchLoop, hp, Res.bind_ok]
    cases v with
    | accept => exact ⟨r, rfl⟩
    | grow => exact absurd (hg rfl) (not_lt.mpr (hT step hA))
    | shrink =>
      exfalso
      have h1 := hs rfl
      have h2 := hlip lo step h0 hlt
      nlinarith
  | succ m ih =>
    obtain ⟨v, r, hp, hg, hs⟩ := hI count step hst
    rw [searchLoop, hp, Res.bind_ok]
    have h2A : (1 : α) ≤ 2 ^ A := one_le_pow₀ (by norm_num)
    have hle : step ≤ 2 ^ A * step := le_mul_of_one_le_left hst.le h2A
    have hmin' : ¬ step < p.minStep := not_lt.mpr hmins
    have hmax' : ¬ step > p.maxStep := not_lt.mpr (hle.trans hmax)
    cases v with
    | accept => exact ⟨r, rfl⟩
    | grow =>
      rw [if_neg (fun h => by cases h), if_neg hmin', if_neg hmax']
      cases A with
      | zero =>
        rw [pow_zero, one_mul] at hA
        exact absurd (hg rfl) (not_lt.mpr (hT step hA))
      | succ A =>
        have e : (2 : α) ^ (A + 1) * step = 2 ^ A * (2 * step) := by rw [pow_succ]; ring
        rw [e] at hA hB hmax
        exact ih A (count + 1) step (2 * step) hst.le (hg rfl) (by linarith) hA (by linarith) hmax hB (by omega) (by linarith)
    | shrink =>
      rw [if_neg (fun h => by cases h), if_neg hmin', if_neg hmax']
      refine bisection hI hM hs12 hlip hmin m B (count + 1) lo step h0 hlo hlt (hs rfl) (hle.trans hmax) ?_ (by omega)
      refine le_trans (mul_le_mul_of_nonneg_right ?_ hM.le) hB
      linarith

end

/-- The slope of the loss along a direction. -/
def slopeAt (loss : LossFn α (List α)) (X : DMat α) (y xp d : List α) (t : α) : α :=
  match loss.gradient X y (List.zipWith (fun a b => a + t * b) xp d) with
  | .ok g => (List.zipWith (· * ·) d g).sum
  | _ => 0

theorem slopeAt_eq {loss : LossFn α (List α)} {X : DMat α} {y : List α} {n : Nat} (hT : TotalOn loss X y n) {xp d : List α}
    (hx : xp.length = n) (hd : d.length = n) (t : α) :
    ∃ z f g, z = List.zipWith (fun a b => a + t * b) xp d ∧ z.length = n ∧ vec n z = vec n xp + t • vec n d ∧
      loss.evaluate X y z = .ok f ∧ loss.gradient X y z = .ok g ∧ g.length = n ∧
      slopeAt loss X y xp d t = vec n d ⬝ᵥ vec n g := by
  have hl : (List.zipWith (fun a b => a + t * b) xp d).length = n := by simp [hx, hd]
  obtain ⟨⟨f, hf⟩, g, hg, hgl⟩ := hT _ hl
  refine ⟨_, f, g, rfl, hl, vec_zipWith_step hx hd t, hf, hg, hgl, ?_⟩
  unfold slopeAt
  rw [hg]
  exact zipWith_sum hd hgl

theorem informative {p : SearchParams α} (hc : p.condition ≠ "ARMIJO") (h1 : 0 < p.ftol) (h12 : p.ftol < p.wolfe)
    {loss : LossFn α (List α)} {X : DMat α} {y : List α} {n : Nat} {mu : α} (hmu : 0 ≤ mu)
    (hC : StrongConvexity loss X y n mu) (hT : TotalOn loss X y n) {xp d : List α} {f0 m0 : α} (hx : xp.length = n)
    (hd : d.length = n) (ex : loss.evaluate X y xp = .ok f0) (hm0 : m0 < 0) :
    Informative p loss X y f0 m0 xp d (slopeAt loss X y xp d) (p.ftol * m0) (p.wolfe * m0) := by
  intro c t ht
  obtain ⟨z, f, g, hz, hzl, hzv, hf, hg, hgl, hsl⟩ := slopeAt_eq hT hx hd t
  have hadd : Loss.addV xp (d.map fun a => t * a) = .ok z := by
    rw [hz, Loss.addV, if_pos (by rw [List.length_map, hx, hd])]
    congr 1
    rw [List.zipWith_map_right]
  have hconv : p.ftol * m0 * t < f - f0 → p.ftol * m0 < slopeAt loss X y xp d t := by
    intro hlt
    have h2 := hC z xp hzl hx f f0 g hf ex hg
    rw [zipWith_sum hgl (by simp [hx, hzl]), vec_sub hx hzl, sqDist_eq hx hzl] at h2
    have h3 : vec n xp - vec n z = -(t • vec n d) := by rw [hzv]; simp
    have h4 := mul_nonneg (show 0 ≤ mu / 2 by linarith) (dot_self_nonneg (vec n xp - vec n z))
    have h5 : vec n g ⬝ᵥ (vec n xp - vec n z) = -(t * slopeAt loss X y xp d t) := by
      rw [h3, dotProduct_neg, dotProduct_smul, smul_eq_mul, hsl, dotProduct_comm]
    rw [h5] at h2
    refine lt_of_mul_lt_mul_right ?_ ht.le
    linarith
  have hv : ∃ v, verdict p f0 m0 t f d g = .ok v ∧ (v = .grow → slopeAt loss X y xp d t < p.wolfe * m0) ∧
      (v = .shrink → p.ftol * m0 < slopeAt loss X y xp d t) := by
    have hdot : dot d g = .ok (slopeAt loss X y xp d t) := by
      rw [dot, if_pos (hd.trans hgl.symm), hsl]
      congr 1
      exact zipWith_sum hd hgl
    unfold verdict
    split
    · rename_i h
      exact ⟨_, rfl, (fun h => by cases h), fun _ => hconv (by linarith)⟩
    · rw [hdot, Res.bind_ok]
      split
      · rename_i h
        exact ⟨_, rfl, fun _ => h, fun h => by cases h⟩
      · split
        · exact ⟨_, rfl, (fun h => by cases h), fun h => by cases h⟩
        · split
          · rename_i h
            refine ⟨_, rfl, (fun h => by cases h), fun _ => ?_⟩
            nlinarith
          · exact ⟨_, rfl, (fun h => by cases h), fun h => by cases h⟩
  obtain ⟨v, hv, hv1, hv2⟩ := hv
  refine ⟨v, ⟨c + 1, z, f, g, t⟩, ?_, hv1, hv2⟩
  unfold probe
  rw [hadd, Res.bind_ok, hf, Res.bind_ok, hg, Res.bind_ok, hv, Res.bind_ok]

end LBFGS

/-- C139: the bracketing search for a Wolfe condition (with constants `0 < ftol < wolfe < 1`) succeeds along every direction of descent
of a loss with bounded curvature, if the limits on the steps are wide enough: `2 ^ A` times the first step is not too short, and a
bisection of that length into `2 ^ B` parts is fine enough. -/
theorem C139_search (p : SearchParams α) (hc : p.condition ≠ "ARMIJO") (h1 : 0 < p.ftol) (h12 : p.ftol < p.wolfe)
    (h2 : p.wolfe < 1) (loss : LossFn α (List α)) (X : DMat α) (y : List α) (n : Nat) (mu L : α) (hmu : 0 < mu) (hL : 0 < L)
    (hC : StrongConvexity loss X y n mu) (hS : LipschitzGradient loss X y n L) (hT : TotalOn loss X y n) (x g d : List α) (f step : α)
    (hx : x.length = n) (hd : d.length = n) (ex : loss.evaluate X y x = .ok f) (eg : loss.gradient X y x = .ok g)
    (hdesc : (List.zipWith (· * ·) d g).sum < 0) (hst : 0 < step) (A B : Nat)
    (hA : (1 - p.wolfe) * -(List.zipWith (· * ·) d g).sum ≤ mu * (d.map fun a => a ^ 2).sum * (2 ^ A * step))
    (hB : 2 ^ A * step * (L * (d.map fun a => a ^ 2).sum) ≤ 2 ^ B * ((p.wolfe - p.ftol) * -(List.zipWith (· * ·) d g).sum))
    (hmin : p.minStep ≤ step)
    (hmin' : 2 * p.minStep * (L * (d.map fun a => a ^ 2).sum) ≤ (p.wolfe - p.ftol) * -(List.zipWith (· * ·) d g).sum)
    (hmax : 2 ^ A * step ≤ p.maxStep) (hm : A + B + 1 ≤ p.maxLinesearch) :
    ∃ r, search .bracketing p loss X y f g d step x = .ok (some r) := by
  have hgl : g.length = n := by
    obtain ⟨-, g', hg', hl⟩ := hT x hx
    rw [eg] at hg'
    cases hg'
    exact hl
  have hdd : (d.map fun a => a ^ 2).sum = vec n d ⬝ᵥ vec n d := by
    rw [← zipWith_sum hd hd, List.zipWith_self]
    simp only [pow_two]
  obtain ⟨m0, hm0⟩ : ∃ m, m = (List.zipWith (· * ·) d g).sum := ⟨_, rfl⟩
  rw [← hm0] at hdesc hA hB hmin'
  rw [hdd] at hA hB hmin'
  rw [zipWith_sum hd hgl] at hm0
  have hdpos : 0 < vec n d ⬝ᵥ vec n d := dot_self_pos fun h0 => by
    rw [hm0, h0, zero_dotProduct] at hdesc
    exact lt_irrefl _ hdesc
  have hM : 0 < L * (vec n d ⬝ᵥ vec n d) := mul_pos hL hdpos
  have hs12 : p.wolfe * m0 < p.ftol * m0 := mul_lt_mul_of_neg_right h12 hdesc
  have hsub : p.ftol * m0 - p.wolfe * m0 = (p.wolfe - p.ftol) * -m0 := by ring
  have hlip : ∀ l h, 0 ≤ l → l < h →
      slopeAt loss X y x d h - slopeAt loss X y x d l ≤ L * (vec n d ⬝ᵥ vec n d) * (h - l) := by
    intro l h _ hlt
    obtain ⟨z, _, g1, -, hzl, hzv, -, hg1, hl1, e1⟩ := slopeAt_eq hT hx hd l
    obtain ⟨z', _, g2, -, hzl', hzv', -, hg2, hl2, e2⟩ := slopeAt_eq hT hx hd h
    have h3 := hS z z' hzl hzl' g1 g2 hg1 hg2
    have e3 : vec n z' - vec n z = (h - l) • vec n d := by
      rw [hzv, hzv', add_sub_add_left_eq_sub, sub_smul]
    rw [sqDist_eq hl2 hl1, sqDist_eq hzl' hzl, e3, smul_dotProduct, dotProduct_smul, smul_eq_mul, smul_eq_mul] at h3
    rw [e1, e2, ← dotProduct_sub]
    refine (abs_le_of_sq_le_sq' ?_ (mul_nonneg hM.le (by linarith))).2
    calc (vec n d ⬝ᵥ (vec n g2 - vec n g1)) ^ 2 ≤ (vec n d ⬝ᵥ vec n d) * ((vec n g2 - vec n g1) ⬝ᵥ (vec n g2 - vec n g1)) := dot_cs _ _
      _ ≤ (vec n d ⬝ᵥ vec n d) * (L ^ 2 * ((h - l) * ((h - l) * (vec n d ⬝ᵥ vec n d)))) := mul_le_mul_of_nonneg_left h3 hdpos.le
      _ = _ := by ring
  have hzero : slopeAt loss X y x d 0 = m0 := by
    obtain ⟨z, f', g', hz, -, -, -, hg', -, e⟩ := slopeAt_eq hT hx hd 0
    have hzx : z = x := by
      rw [hz]
      apply List.ext_getElem
      · simp [hx, hd]
      · intro i h1 h2
        simp
    rw [hzx, eg] at hg'
    cases hg'
    rw [e, hm0]
  have hTt : ∀ t, (1 - p.wolfe) * -m0 / (mu * (vec n d ⬝ᵥ vec n d)) ≤ t → p.wolfe * m0 ≤ slopeAt loss X y x d t := by
    intro t ht
    have hmd : 0 < mu * (vec n d ⬝ᵥ vec n d) := mul_pos hmu hdpos
    rw [div_le_iff₀ hmd] at ht
    have htp : 0 < t := by
      by_contra hneg
      have h4 : 0 < (1 - p.wolfe) * -m0 := mul_pos (by linarith) (by linarith)
      have h5 : t * (mu * (vec n d ⬝ᵥ vec n d)) ≤ 0 := mul_nonpos_of_nonpos_of_nonneg (not_lt.mp hneg) hmd.le
      linarith
    obtain ⟨z, f', g', hz, hzl, hzv, hf', hg', hl', e⟩ := slopeAt_eq hT hx hd t
    have h3 := slope_lower hC hx hzl hgl hl' ex hf' eg hg'
    rw [hzv, add_sub_cancel_left, smul_dotProduct, smul_dotProduct, dotProduct_smul, smul_eq_mul, smul_eq_mul, smul_eq_mul,
      dotProduct_sub, ← e, ← hm0] at h3
    have h4 : mu * (t * (vec n d ⬝ᵥ vec n d)) ≤ slopeAt loss X y x d t - m0 := by
      refine le_of_mul_le_mul_left ?_ htp
      linarith
    linarith
  have hinf := informative hc h1 h12 hmu.le hC hT hx hd ex hdesc
  unfold search
  rw [if_neg (not_le.mpr hst), dot, if_pos (hd.trans hgl.symm), Res.bind_ok]
  have hdm : Loss.dotL d g = m0 := by rw [hm0]; exact zipWith_sum hd hgl
  rw [hdm, if_neg (not_lt.mpr hdesc.le)]
  refine expansion hinf hM hs12 hlip (by rw [hsub]; exact hmin') hTt (p.maxLinesearch - 1) A B 0 0 step le_rfl ?_ hst ?_ hmin hmax
    (by rw [hsub]; exact hB) (by omega)
  · rw [hzero]
    nlinarith
  · rw [div_le_iff₀ (mul_pos hmu hdpos)]
    linarith

/-- Limits of the line search that are wide enough for a problem with curvatures between `mu` and `L` and a first gradient of length
`G`: `2 ^ A` times the first step is long enough, and the `2 ^ B`-th part of this is short enough. The steps after the first iteration
start from one. -/
structure Spec.WideSearch (p : LBFGS.Params α) (mu L G : α) (A B : Nat) : Prop where
  ftol_lt : p.search.ftol < p.search.wolfe
  first_long : (1 - p.search.wolfe) * G ≤ mu * 2 ^ A
  first_fine : 2 ^ A * L ≤ 2 ^ B * ((p.search.wolfe - p.search.ftol) * G)
  first_min : p.search.minStep * G ≤ 1
  first_min' : 2 * p.search.minStep * L ≤ p.search.wolfe - p.search.ftol
  first_max : 2 ^ A ≤ p.search.maxStep * G
  later_long : (1 - p.search.wolfe) * bfgsLower p.memSize mu L ≤ mu * 2 ^ A
  later_fine : 2 ^ A * L * bfgsUpper p.memSize mu L ≤ 2 ^ B * (p.search.wolfe - p.search.ftol)
  later_min : p.search.minStep ≤ 1
  later_min' : 2 * p.search.minStep * L * bfgsUpper p.memSize mu L ≤ p.search.wolfe - p.search.ftol
  later_max : 2 ^ A ≤ p.search.maxStep
  rounds : A + B + 1 ≤ p.search.maxLinesearch

namespace LBFGS

theorem sumsq_eq {n : Nat} {d : List α} (hd : d.length = n) : (d.map fun a => a ^ 2).sum = vec n d ⬝ᵥ vec n d := by
  rw [← zipWith_sum hd hd, List.zipWith_self]
  simp only [pow_two]

/-- The searches of a run succeed. -/
theorem search_succeeds {loss : LossFn α (List α)} {X : DMat α} {y : List α} {n : Nat} {mu L G : α} {p : LBFGS.Params α}
    (hR : CurvedProblem loss X y n mu L p) (hT : TotalOn loss X y n) {A B : Nat} (hW : WideSearch p mu L G A B) (hG : 0 < G)
    {σ : Nat → State α} {i : Nat} (hI : Rate loss X y n mu L p σ i)
    (h0 : i = 0 → (σ i).d = (σ i).g.map (fun a => -a) ∧ (σ i).step = 1 / G ∧ vec n (σ i).g ⬝ᵥ vec n (σ i).g = G ^ 2)
    (h1 : 0 < i → (σ i).step = 1) :
    ∃ r, search .bracketing p.search loss X y (σ i).fx (σ i).g (σ i).d (σ i).step (σ i).x = .ok (some r) := by
  have hmu := hR.mu_pos
  have hL : 0 < L := lt_of_lt_of_le hmu hR.mu_le
  have hd := hI.desc.hd
  have hg := hI.desc.inv.hg
  have hdesc := hI.desc.desc
  have hdd : 0 < vec n (σ i).d ⬝ᵥ vec n (σ i).d := dot_self_pos fun h0 => by
    rw [h0, zero_dotProduct] at hdesc
    exact lt_irrefl _ hdesc
  have hw := hR.wolfe_lt
  have hfw := hW.ftol_lt
  have h2A : (0 : α) < 2 ^ A := by positivity
  have h2B : (0 : α) < 2 ^ B := by positivity
  have key : (1 - p.search.wolfe) * -(vec n (σ i).d ⬝ᵥ vec n (σ i).g) ≤ mu * (vec n (σ i).d ⬝ᵥ vec n (σ i).d) * (2 ^ A * (σ i).step) ∧
      2 ^ A * (σ i).step * (L * (vec n (σ i).d ⬝ᵥ vec n (σ i).d)) ≤
        2 ^ B * ((p.search.wolfe - p.search.ftol) * -(vec n (σ i).d ⬝ᵥ vec n (σ i).g)) ∧
      p.search.minStep ≤ (σ i).step ∧
      2 * p.search.minStep * (L * (vec n (σ i).d ⬝ᵥ vec n (σ i).d)) ≤
        (p.search.wolfe - p.search.ftol) * -(vec n (σ i).d ⬝ᵥ vec n (σ i).g) ∧
      2 ^ A * (σ i).step ≤ p.search.maxStep := by
    rcases Nat.eq_zero_or_pos i with hi | hi
    · obtain ⟨e1, e2, e3⟩ := h0 hi
      have e4 : vec n (σ i).d = -vec n (σ i).g := by
        rw [e1]
        conv_lhs => rw [← ofFn_vec hg, map_ofFn', vec_ofFn]
        rfl
      rw [e4, neg_dotProduct_neg, neg_dotProduct, neg_neg, e3, e2]
      refine ⟨?_, ?_, ?_, ?_, ?_⟩
      · have : mu * G ^ 2 * (2 ^ A * (1 / G)) = mu * 2 ^ A * G := by field_simp
        rw [this, pow_two, ← mul_assoc]
        exact mul_le_mul_of_nonneg_right hW.first_long hG.le
      · have : 2 ^ A * (1 / G) * (L * G ^ 2) = 2 ^ A * L * G := by field_simp
        rw [this]
        calc 2 ^ A * L * G ≤ 2 ^ B * ((p.search.wolfe - p.search.ftol) * G) * G := mul_le_mul_of_nonneg_right hW.first_fine hG.le
          _ = _ := by ring
      · rw [le_div_iff₀ hG]
        exact hW.first_min
      · rw [← mul_assoc]
        exact mul_le_mul_of_nonneg_right hW.first_min' (sq_nonneg _)
      · rw [mul_one_div, div_le_iff₀ hG]
        exact hW.first_max
    · obtain ⟨e1, e2⟩ := hI.ratio hi
      rw [h1 hi, mul_one]
      obtain ⟨D, hD⟩ : ∃ D, D = vec n (σ i).d ⬝ᵥ vec n (σ i).d := ⟨_, rfl⟩
      obtain ⟨q, hq⟩ : ∃ q, q = -(vec n (σ i).d ⬝ᵥ vec n (σ i).g) := ⟨_, rfl⟩
      have hq0 : 0 < q := by rw [hq]; linarith
      rw [← hD, ← hq] at e1 e2 ⊢
      rw [← hD] at hdd
      refine ⟨?_, ?_, hW.later_min, ?_, hW.later_max⟩
      · have h3 := mul_le_mul_of_nonneg_left e2 (show 0 ≤ 1 - p.search.wolfe by linarith)
        have h4 := mul_le_mul_of_nonneg_right hW.later_long hdd.le
        linarith
      · have h3 := mul_le_mul_of_nonneg_left e1 (show 0 ≤ 2 ^ A * L by positivity)
        have h4 := mul_le_mul_of_nonneg_right hW.later_fine hq0.le
        linarith
      · rcases le_or_gt 0 p.search.minStep with hm | hm
        · have h3 := mul_le_mul_of_nonneg_left e1 (show 0 ≤ 2 * p.search.minStep * L by positivity)
          have h4 := mul_le_mul_of_nonneg_right hW.later_min' hq0.le
          linarith
        · have h3 : 2 * p.search.minStep * (L * D) ≤ 0 := mul_nonpos_of_nonpos_of_nonneg (by linarith) (by positivity)
          have h4 : 0 ≤ (p.search.wolfe - p.search.ftol) * q := mul_nonneg (by linarith) hq0.le
          linarith
  obtain ⟨k1, k2, k3, k4, k5⟩ := key
  exact C139_search p.search hR.wolfe_used hR.ftol_pos hW.ftol_lt hR.wolfe_lt loss X y n mu L hmu hL hR.convex hR.smooth hT
    (σ i).x (σ i).g (σ i).d (σ i).fx (σ i).step hI.desc.inv.hx hd hI.con.1 hI.con.2 (by rw [zipWith_sum hd hg]; exact hdesc)
    hI.desc.step A B (by rw [zipWith_sum hd hg, sumsq_eq hd]; exact k1) (by rw [zipWith_sum hd hg, sumsq_eq hd]; exact k2) k3
    (by rw [zipWith_sum hd hg, sumsq_eq hd]; exact k4) k5 hW.rounds

end LBFGS

/-- C139: L-BFGS with the bracketing search and a Wolfe condition converges on losses with bounded curvature. If the limits of the search
are wide enough, no limit on iterations below `N` is set and the test of past losses is switched off, the optimizer leaves weights
whose gradient passes the test; their loss exceeds that of any other weights by at most the square of the bound of the test, divided by
twice the curvature. The exception is a start that already passes the test, which leaves no weights. -/
theorem C139_converges (sqrt : α → α) (hsq : ∀ a, 0 ≤ a → 0 ≤ sqrt a ∧ sqrt a ^ 2 = a) (loss : LossFn α (List α)) (X : DMat α)
    (y : List α) (mu L : α) (p : LBFGS.Params α) (junk : Nat → α) (x0 g0 : List α)
    (hR : CurvedProblem loss X y x0.length mu L p) (hT : TotalOn loss X y x0.length) (hpol : p.policy = "bracketing")
    (hm : 0 < p.memSize) (hp : 0 < p.past) (hdelta : p.delta ≤ 0) (eg : loss.gradient X y x0 = .ok g0) (A B : Nat)
    (hW : WideSearch p mu L (len sqrt g0) A B) (N : Nat)
    (hN : (g0.map fun a => a ^ 2).sum < 2 * mu * lbfgsGain p.memSize mu L p.search.ftol p.search.wolfe * p.tol ^ 2 * N)
    (hmax : p.maxIter = 0 ∨ N < p.maxIter) (fuel : Nat) (hfuel : N ≤ fuel) :
    (len sqrt g0 ≤ p.tol * max 1 (len sqrt x0) ∧ LBFGS.optimize sqrt p junk fuel loss X y x0 = .ok none) ∨
    ∃ x f g, LBFGS.optimize sqrt p junk fuel loss X y x0 = .ok (some x) ∧ x.length = x0.length ∧ loss.evaluate X y x = .ok f ∧
      loss.gradient X y x = .ok g ∧ len sqrt g ≤ p.tol * max 1 (len sqrt x) ∧
      ∀ z f', z.length = x0.length → loss.evaluate X y z = .ok f' → 2 * mu * (f - f') ≤ (p.tol * max 1 (len sqrt x)) ^ 2 := by
  have hsq0 : sqrt 0 = 0 := pow_eq_zero_iff (two_ne_zero) |>.mp (hsq 0 le_rfl).2
  obtain ⟨⟨f0, ex⟩, g', hg', hg0⟩ := hT x0 rfl
  rw [eg] at hg'
  cases hg'
  rcases C138_ends sqrt hsq loss X y mu L p junk x0 g0 f0 hR hT (Or.inr hpol) hm hp ex eg N hN with ⟨h1, h2⟩ |
    ⟨x, policy, σ, K, hstart, hpo, hK, hσ0, hit, hx, hopt, hxl, -⟩
  · exact Or.inl ⟨h1, h2 fuel⟩
  right
  have hcv : converged sqrt p.tol x0 g0 = false := by
    rw [← Bool.not_eq_true, converged_iff]
    exact not_le.mpr hstart
  have hne := not_converged_ne hsq0 hR.tol_nonneg hg0 hcv
  have hG : 0 < len sqrt g0 := lt_of_le_of_lt (mul_nonneg hR.tol_nonneg (zero_le_one.trans (le_max_left _ _))) hstart
  have hsqlen : ∀ v : List α, v.length = x0.length → len sqrt v ^ 2 = vec x0.length v ⬝ᵥ vec x0.length v := by
    intro v hv
    rw [← sumsq_eq hv]
    unfold len
    rw [(hsq _ (List.sum_nonneg fun a ha => by
      obtain ⟨b, -, rfl⟩ := List.mem_map.mp ha
      exact mul_self_nonneg b)).2]
    simp only [pow_two]
  obtain rfl : policy = .bracketing := by
    rw [hpol, policyOf] at hpo
    simpa using hpo.symm
  have hI := rate_of_run hsq0 hR hit hσ0 hg0 (by positivity) hne ex eg K le_rfl
  obtain ⟨r, hr⟩ := search_succeeds hR hT hW hG hI (fun h => by
    rw [h, hσ0]
    exact ⟨rfl, rfl, (hsqlen g0 hg0).symm⟩) (fun h => by
    obtain ⟨i, rfl⟩ : ∃ i, K = i + 1 := ⟨K - 1, by omega⟩
    exact (C55_direction sqrt .bracketing p loss X y σ (i + 1) hit junk x0 g0 f0 _ hσ0 i (by omega)).2)
  obtain ⟨-, he, hg⟩ := search_step hR.factors hI.con hr
  have hrl : r.x.length = x0.length := (search_lengths hr).2.2.trans hI.desc.inv.hx
  have hgl : r.g.length = x0.length := by
    obtain ⟨-, g, hg1, hl⟩ := hT r.x hrl
    rw [hg] at hg1
    cases hg1
    exact hl
  have hfin : x = r.x ∧ len sqrt r.g ≤ p.tol * max 1 (len sqrt r.x) := by
    unfold iteration at hx
    rw [hr, Res.bind_ok] at hx
    dsimp only at hx
    split at hx
    · rename_i h
      cases hx
      exact ⟨rfl, (converged_iff _ _ _ _).mp h⟩
    · exfalso
      obtain ⟨t, ht, hx⟩ := Res.bind_eq_ok.mp hx
      cases t with
      | none =>
        unfold pastTest at ht
        split at ht
        · rw [if_neg hp.ne'] at ht
          obtain ⟨v, -, ht⟩ := Res.bind_eq_ok.mp ht
          split at ht
          · rename_i h
            have : 0 ≤ |v - r.fx| / max |r.fx| 1 := div_nonneg (abs_nonneg _) (le_trans zero_le_one (le_max_right _ _))
            linarith
          · cases ht
        · cases ht
      | some pfx =>
        dsimp only at hx
        split at hx
        · rename_i h
          have hk := hI.desc.inv.k
          omega
        · obtain ⟨st', -, hx⟩ := Res.bind_eq_ok.mp hx
          cases hx
  obtain ⟨rfl, hsmall⟩ := hfin
  refine ⟨r.x, r.fx, r.g, hopt fuel hfuel, hrl, he, hg, hsmall, fun z f' hz ez => ?_⟩
  refine (gap_le hR.mu_pos hR.convex hrl hz hgl he ez hg).trans ?_
  rw [← hsqlen r.g hgl]
  refine pow_le_pow_left₀ (hsq _ (List.sum_nonneg fun a ha => ?_)).1 hsmall 2
  obtain ⟨b, -, rfl⟩ := List.mem_map.mp ha
  exact mul_self_nonneg b

end

/-- Example for `C139_search`: the first search from the weights 3 and 2, along the gradient with the step 1 / 5. -/
example : StrongConvexity (basin ℝ) ⟨2, []⟩ [] 2 1 ∧ LipschitzGradient (basin ℝ) ⟨2, []⟩ [] 2 2 ∧ TotalOn (basin ℝ) ⟨2, []⟩ [] 2 ∧
    (List.zipWith (· * ·) [-3, -4] [3, 4]).sum = (-25 : ℝ) ∧ (([-3, -4] : List ℝ).map fun a => a ^ 2).sum = 25 ∧
    (1 - (9 / 10 : ℝ)) * -(-25) ≤ 1 * 25 * (2 ^ 0 * (1 / 5)) ∧
    2 ^ 0 * (1 / 5) * (2 * (25 : ℝ)) ≤ 2 ^ 0 * ((9 / 10 - 1 / 10) * -(-25)) ∧
    ∃ r, search .bracketing (basinParams ℝ "bracketing").search (basin ℝ) ⟨2, []⟩ [] (17 / 2) [3, 4] [-3, -4] (1 / 5) [3, 2] = .ok (some r) := by
  have hc := basin_curved ℝ "bracketing" ⟨2, []⟩ []
  refine ⟨hc.convex, hc.smooth, basin_total ℝ _ _, by norm_num, by norm_num, by norm_num, by norm_num, ?_⟩
  exact C139_search (basinParams ℝ "bracketing").search hc.wolfe_used hc.ftol_pos (by norm_num [basinParams]) hc.wolfe_lt (basin ℝ)
    ⟨2, []⟩ [] 2 1 2 one_pos two_pos hc.convex hc.smooth (basin_total ℝ _ _) [3, 2] [3, 4] [-3, -4] (17 / 2) (1 / 5) rfl rfl
    (by norm_num [basin]) (by norm_num [basin]) (by norm_num) (by norm_num) 0 0 (by norm_num [basinParams]) (by norm_num [basinParams])
    (by norm_num [basinParams]) (by norm_num [basinParams]) (by norm_num [basinParams]) (by norm_num [basinParams])

/-- Example for `C139_converges`: from the weights 3 and 2, without a limit of the number of iterations. The start does not pass the
test, so that weights with a small gradient are found. -/
example (junk : Nat → ℝ) : ∃ x g, LBFGS.optimize Real.sqrt (basinParams ℝ "bracketing") junk 40000001 (basin ℝ) ⟨2, []⟩ [] [3, 2] =
    .ok (some x) ∧ (basin ℝ).gradient ⟨2, []⟩ [] x = .ok g ∧ len Real.sqrt g ≤ 1 / 10 * max 1 (len Real.sqrt x) := by
  have hW : WideSearch (basinParams ℝ "bracketing") 1 2 (len Real.sqrt [3, 4]) 0 6 := by
    rw [len_34]
    constructor <;> norm_num [basinParams, bfgsLower, bfgsUpper]
  rcases C139_converges Real.sqrt (fun a ha => ⟨Real.sqrt_nonneg a, Real.sq_sqrt ha⟩) (basin ℝ) ⟨2, []⟩ [] 1 2
    (basinParams ℝ "bracketing") junk [3, 2] [3, 4] (basin_curved ℝ "bracketing" _ _) (basin_total ℝ _ _) rfl Nat.one_pos Nat.one_pos
    le_rfl (by norm_num [basin]) 0 6 hW 40000001
    (by rw [basin_gain]; norm_num [basinParams]) (Or.inl rfl) 40000001 le_rfl with ⟨h, -⟩ | ⟨x, f, g, h1, -, -, h2, h3, -⟩
  · exfalso
    have h1 : len Real.sqrt [(3 : ℝ), 2] ≤ 5 := by
      refine (Real.sqrt_le_sqrt (y := 5 ^ 2) ?_).trans (Real.sqrt_sq (by norm_num)).le
      norm_num
    have h3 : max 1 (len Real.sqrt [(3 : ℝ), 2]) ≤ 5 := max_le (by norm_num) h1
    have h4 : (basinParams ℝ "bracketing").tol = 1 / 10 := rfl
    rw [len_34, h4] at h
    linarith
  · exact ⟨x, g, h1, h2, h3⟩

end OpenML
