import Verif.Lemmas.Regions
import Verif.Props.LinearAnswers
import Verif.Props.LinearPredict
import Verif.Props.NaiveBayes
import Verif.Props.KMeans
import Verif.Props.DecisionTreeMore

/-!
# C160: regions with the same answer
-/

namespace OpenML

open Spec Regions

namespace Regions

theorem scoreOf_between (b : Bool) (v a c : List ℝ) (t : ℝ) (h : a.length = c.length) :
    scoreOf b v (between t a c) = (1 - t) * scoreOf b v a + t * scoreOf b v c := by
  have hmul : ∀ u w i : ℝ, ((1 - t) * u + t * w) * i = (1 - t) * (u * i) + t * (w * i) := fun u w i => by ring
  cases b with
  | false => exact sum_between t (· * ·) hmul a c v h
  | true =>
    have := sum_between t (· * ·) hmul (a ++ [1]) (c ++ [1]) v (by simp [h])
    simp only [scoreOf, extended, if_true]
    rw [between_append_one t a c h, this]

theorem sqDist_between {α : Type} [Field α] [LinearOrder α] [IsStrictOrderedRing α] (t : α) :
    ∀ (a b c : List α), a.length = b.length → a.length = c.length →
      sqDist (between t a b) c = (1 - t) * sqDist a c + t * sqDist b c - t * (1 - t) * sqDist a b
  | [], [], [], _, _ => by simp [between, sqDist]
  | u :: a, v :: b, w :: c, h, h' => by
    have ih := sqDist_between t a b c (by simpa using h) (by simpa using h')
    simp only [between, sqDist, List.zipWith_cons_cons, List.sum_cons] at ih ⊢
    rw [ih]
    ring

theorem quad_between (t : ℝ) : ∀ (a b m v : List ℝ), a.length = b.length → a.length = m.length → a.length = v.length →
    (List.zipWith (fun c v => c / v) (List.zipWith (fun a m => (a - m) ^ 2) (between t a b) m) v).sum =
      (1 - t) * (List.zipWith (fun c v => c / v) (List.zipWith (fun a m => (a - m) ^ 2) a m) v).sum +
      t * (List.zipWith (fun c v => c / v) (List.zipWith (fun a m => (a - m) ^ 2) b m) v).sum -
      t * (1 - t) * (List.zipWith (fun c v => c / v) (List.zipWith (fun a m => (a - m) ^ 2) a b) v).sum
  | [], [], [], [], _, _, _ => by simp [between]
  | u :: a, x :: b, w :: m, s :: v, h, h', h'' => by
    have ih := quad_between t a b m v (by simpa using h) (by simpa using h') (by simpa using h'')
    simp only [between, List.zipWith_cons_cons, List.sum_cons] at ih ⊢
    rw [ih]
    ring

end Regions

/-- C160: predictions of a linear model are affine: on the segment between two samples they divide in the same ratio. -/
theorem C160_affine (b : Bool) (v : List ℝ) (X : DMat ℝ) (hX : X.WF) (hv : v.length = weightLength b X) :
    ∃ ys, LinearFit.predictLabel b v X = .ok ys ∧ ys.length = X.nrows ∧
      ∀ (i j k : Nat) (a c : List ℝ) (t p q : ℝ), X.rows[i]? = some a → X.rows[j]? = some c → X.rows[k]? = some (between t a c) →
        ys[i]? = some p → ys[j]? = some q → ys[k]? = some ((1 - t) * p + t * q) := by
  refine ⟨_, LinearAnswers.predictLabel_score b v X hX hv, by simp [DMat.nrows], fun i j k a c t p q hi hj hk hp hq => ?_⟩
  rw [List.getElem?_map, hi, Option.map_some, Option.some.injEq] at hp
  rw [List.getElem?_map, hj, Option.map_some, Option.some.injEq] at hq
  rw [List.getElem?_map, hk, Option.map_some,
    scoreOf_between b v a c t ((hX a (List.mem_of_getElem? hi)).trans (hX c (List.mem_of_getElem? hj)).symm), hp, hq]

/-- C160: the samples a perceptron assigns to a label form a convex set. -/
theorem C160_perceptron (b : Bool) (v : List ℝ) (X : DMat ℝ) (hX : X.WF) (hv : v.length = weightLength b X) :
    ∃ ys, LinearFit.predictPerceptron b v X = .ok ys ∧ ConvexAnswers X.rows ys := by
  refine ⟨X.rows.map fun r => if scoreOf b v r > 0 then 1 else 0, ?_, convex_of_sign (s := scoreOf b v) 1 0 fun a ha c hc t _ _ =>
    scoreOf_between b v a c t ((hX a ha).trans (hX c hc).symm)⟩
  rw [LinearFit.predictPerceptron, LinearAnswers.predictLabel_score b v X hX hv, Res.bind_ok, List.map_map]
  rfl

/-- C160: the samples a logistic regression assigns to a label form a convex set, and along a segment the probabilities stay between
those of the ends. -/
theorem C160_logistic (w : List ℝ) (X : DMat ℝ) (hX : X.WF) (hw : w.length = X.ncols + 1) :
    ∃ ys P, LinearFit.predictLogistic w X = .ok ys ∧ LinearFit.logisticProb w X = .ok P ∧ ConvexAnswers X.rows ys ∧
      ∀ (i j k : Nat) (a c z : List ℝ), X.rows[i]? = some a → X.rows[j]? = some c → X.rows[k]? = some z → OnSegment a c z →
        ∃ p q r : ℝ, P.rows[i]? = some [p, 1 - p] ∧ P.rows[j]? = some [q, 1 - q] ∧ P.rows[k]? = some [r, 1 - r] ∧
          min p q ≤ r ∧ r ≤ max p q := by
  obtain ⟨P, ys, h1, h2, -, -, h3⟩ := C58_prob w X hX hw
  have hsc : ∀ a ∈ X.rows, ∀ c ∈ X.rows, ∀ t : ℝ, Loss.dotL (between t a c ++ [1]) w =
      (1 - t) * Loss.dotL (a ++ [1]) w + t * Loss.dotL (c ++ [1]) w :=
    fun a ha c hc t => scoreOf_between true w a c t ((hX a ha).trans (hX c hc).symm)
  have hmono : ∀ s s' : ℝ, s ≤ s' → 1 / (1 + Real.exp (-s)) ≤ 1 / (1 + Real.exp (-s')) := by
    intro s s' h
    refine one_div_le_one_div_of_le (by positivity) ?_
    have := Real.exp_le_exp.mpr (neg_le_neg h)
    linarith
  refine ⟨ys, P, h2, h1, ?_, ?_⟩
  · have hys : ys = X.rows.map fun r => if Loss.dotL (r ++ [1]) w > 0 then 0 else 1 := by
      rw [predictLogistic_eq w X hX hw] at h2
      exact (Res.ok.inj h2).symm
    rw [hys]
    exact convex_of_sign 0 1 fun a ha c hc t _ _ => hsc a ha c hc t
  · rintro i j k a c z hi hj hk ⟨t, h0, h1, rfl⟩
    obtain ⟨p, p', -, hp, -, -, -, hp1, hpe, -⟩ := h3 i a hi
    obtain ⟨q, q', -, hq, -, -, -, hq1, hqe, -⟩ := h3 j c hj
    obtain ⟨r, r', -, hr, -, -, -, hr1, hre, -⟩ := h3 k _ hk
    rw [hsc a (List.mem_of_getElem? hi) c (List.mem_of_getElem? hj) t] at hre
    refine ⟨p, q, r, by rw [hp, ← hp1]; simp, by rw [hq, ← hq1]; simp, by rw [hr, ← hr1]; simp, ?_⟩
    rw [hpe, hqe, hre]
    rcases le_total (Loss.dotL (a ++ [1]) w) (Loss.dotL (c ++ [1]) w) with h | h
    · rw [min_eq_left (hmono _ _ h), max_eq_right (hmono _ _ h)]
      exact ⟨hmono _ _ (by nlinarith), hmono _ _ (by nlinarith)⟩
    · rw [min_eq_right (hmono _ _ h), max_eq_left (hmono _ _ h)]
      exact ⟨hmono _ _ (by nlinarith), hmono _ _ (by nlinarith)⟩

/-- C160: the samples a softmax regression assigns to a class form a convex set. -/
theorem C160_softmax (W X : DMat ℝ) (hX : X.WF) (hW : W.WF) (hn : W.nrows = X.ncols + 1) (hr : 2 ≤ X.nrows) (hc : 2 ≤ W.ncols) :
    ∃ ys, LinearFit.softmaxPredict W X = .ok ys ∧ ConvexAnswers X.rows ys := by
  have hne : X.rows ≠ [] := by
    intro h
    rw [DMat.nrows, h] at hr
    simp at hr
  obtain ⟨P, ys, -, h2, -, hl, -, h3⟩ := (C82_predict W X hW hn hne (by omega)).2 (by omega)
  refine ⟨ys, h2, convex_of_max (L := List.range W.ncols) (score := fun r c => Loss.dotL r ((W.col c).take X.ncols)) ?_ ?_⟩
  · rw [List.forall₂_iff_get]
    refine ⟨hl.symm, fun i hi hi' => h3 i _ _ ?_ ?_⟩
    · exact List.getElem?_eq_getElem hi
    · exact List.getElem?_eq_getElem hi'
  · intro a ha b hb t _ _
    refine ⟨0, fun c _ => ?_⟩
    rw [add_zero]
    exact sum_between t (· * ·) (fun u v i => by ring) a b _ ((hX a ha).trans (hX b hb).symm)

/-- C160: the samples that k-means assigns to a cluster form a convex set. -/
theorem C160_kmeans {α : Type} [Field α] [LinearOrder α] [IsStrictOrderedRing α] (X : DMat α) (hx : X.WF) (C : List (List α)) (hC : C ≠ [])
    (hw : ∀ r ∈ C, r.length = X.ncols) : ∃ labels, KMeans.predict C X = .ok labels ∧ ConvexAnswers X.rows labels := by
  obtain ⟨labels, h1, h2⟩ := C40_predict X hx C hC hw
  refine ⟨labels, h1, convex_of_max (L := C) (score := fun x c => -sqDist x c) (h2.imp fun x j h => (firstMin_iff_neg C _ j).mp h) ?_⟩
  intro a ha b hb t _ _
  refine ⟨t * (1 - t) * sqDist a b, fun c hc => ?_⟩
  rw [sqDist_between t a b c ((hx a ha).trans (hx b hb).symm) ((hx a ha).trans (hw c hc).symm)]
  ring

/-- C160: the samples that multinomial naive Bayes assigns to a class form a convex set. -/
theorem C160_multinomial (alpha : ℝ) (ha : 0 < alpha) (priors : List ℝ) (hp : ∀ p ∈ priors, 0 < p) (hpne : priors ≠ [])
    (feature : List (List ℝ)) (hlen : feature.length = priors.length) (X : DMat ℝ) (hx : X.WF) (hd : 0 < X.ncols)
    (hf : ∀ c ∈ feature, c.length = X.ncols ∧ ∀ a ∈ c, 0 ≤ a) :
    ∃ jll ys, NB.multinomialJLL alpha priors ⟨X.ncols, feature, feature.map List.sum⟩ X = .ok jll ∧ NB.predict jll = .ok ys ∧
      ConvexAnswers X.rows ys := by
  have hj := C44_joint alpha ha priors hp feature X hx hd hf
  set jll : DMat ℝ := ⟨priors.length, X.rows.map fun x => List.zipWith (fun p c => Real.log (p * (List.zipWith (fun q a => q ^ a)
        (c.map fun n => (n + alpha) / (c.sum + alpha * (X.ncols : ℝ))) x).prod)) priors feature⟩ with hjd
  have hwf : jll.WF := by
    intro r hr
    obtain ⟨x, -, rfl⟩ := List.mem_map.mp hr
    simp [hjd, hlen]
  obtain ⟨P, ps, -, h1, h2, -, -⟩ := C43_predict jll hwf (List.length_pos_of_ne_nil hpne)
  refine ⟨jll, _, hj, h1, ?_⟩
  have key : ConvexAnswers X.rows ps := by
    refine convex_of_max (L := priors.zip feature) (score := fun x e =>
      Real.log e.1 + (List.zipWith (fun a c => a * Real.log ((c + alpha) / (e.2.sum + alpha * (X.ncols : ℝ)))) x e.2).sum) ?_ ?_
    · rw [hjd, List.forall₂_map_left_iff] at h2
      refine List.forall₂_iff_get.mpr ⟨h2.length_eq, fun i hi hi' => ?_⟩
      have := h2.get hi hi'
      set x := X.rows.get ⟨i, hi⟩ with hxd
      have hxl : x.length = X.ncols := hx _ (List.get_mem _ _)
      convert this using 1
      refine List.ext_getElem (by simp) fun n h1 h2 => ?_
      have hn1 : n < priors.length := by rw [List.length_zipWith] at h2; omega
      have hn2 : n < feature.length := by rw [List.length_zipWith] at h2; omega
      simp only [List.getElem_map, List.getElem_zip, List.getElem_zipWith]
      obtain ⟨hc1, hc2⟩ := hf _ (List.getElem_mem hn2)
      have hne : feature[n] ≠ [] := by
        intro h
        rw [h] at hc1
        simp at hc1
        omega
      obtain ⟨s1, -, s3⟩ := C44_smoothed alpha ha feature[n] hc2 hne
      have e1 := s3 x (hxl.trans hc1.symm)
      rw [NB.multinomialLL_eq _ _ _ _ _ (hxl.trans hc1.symm), hc1] at e1
      rw [Res.ok.inj e1, Real.log_mul (hp _ (List.getElem_mem hn1)).ne']
      refine (List.prod_pos ?_).ne'
      intro r hr
      obtain ⟨m, hm, rfl⟩ := List.mem_iff_getElem.mp hr
      rw [List.getElem_zipWith]
      refine Real.rpow_pos_of_pos (s1 _ ?_) _
      rw [hc1]
      exact List.getElem_mem _
    · intro a ha' b hb t _ _
      refine ⟨0, fun e _ => ?_⟩
      rw [sum_between t (fun a c => a * Real.log ((c + alpha) / (e.2.sum + alpha * (X.ncols : ℝ)))) (fun u v i => by ring) a b _
        ((hx a ha').trans (hx b hb).symm)]
      ring
  intro i j k a b z c hi hj hk hs hci hcj
  rw [List.getElem?_map, Option.map_eq_some_iff] at hci hcj
  obtain ⟨p, hp1, rfl⟩ := hci
  obtain ⟨q, hq1, hq2⟩ := hcj
  obtain rfl : q = p := by exact_mod_cast hq2
  rw [List.getElem?_map, key i j k a b z q hi hj hk hs hp1 hq1]
  rfl

/-- C160: if all classes have the same variances, the samples that Gaussian naive Bayes assigns to a class form a convex set. -/
theorem C160_gaussian (p0 : ℝ) (ps : List ℝ) (mean : List (List ℝ)) (v : List ℝ) (X : DMat ℝ) (hx : X.WF)
    (hm : ∀ r ∈ mean, r.length = X.ncols) (hvl : v.length = X.ncols) (hv : ∀ a ∈ v, 0 < a) (hp : (p0 :: ps).length = mean.length) :
    ∃ jll ys, NB.gaussianJLL false (p0 :: ps) ⟨mean, List.replicate mean.length v⟩ X = .ok jll ∧ NB.predict jll = .ok ys ∧
      ConvexAnswers X.rows ys := by
  obtain ⟨jll, cs, h1, h2, h3⟩ := C71_predict_ignores_priors p0 ps ⟨mean, List.replicate mean.length v⟩ X hm (by
    intro r hr
    rw [List.eq_of_mem_replicate hr]
    exact ⟨hvl, hv⟩) hx (by simp) hp
  refine ⟨jll, _, h1, h2, ?_⟩
  have hmem : ∀ mv ∈ mean.zip (List.replicate mean.length v), mv.1.length = X.ncols ∧ mv.2 = v := fun mv h =>
    ⟨hm _ (List.of_mem_zip h).1, List.eq_of_mem_replicate (List.of_mem_zip h).2⟩
  have hlog : ∀ x ∈ X.rows, ∀ mv ∈ mean.zip (List.replicate mean.length v), Real.log (independentPdf mv.1 mv.2 x) =
      NB.sumLogVar v - (List.zipWith (fun c v => c / v) (List.zipWith (fun a m => (a - m) ^ 2) x mv.1) v).sum * (1 / 2) := by
    intro x hxm mv h
    obtain ⟨e1, e2⟩ := hmem mv h
    have hl1 : x.length = mv.1.length := (hx x hxm).trans e1.symm
    have hl2 : x.length = mv.2.length := by rw [e2, hvl]; exact hx x hxm
    have := NB.gaussianLL_eq mv.1 mv.2 x hl1 hl2 (by rw [e2]; exact hv)
    rw [NB.gaussianLL, if_pos ⟨hl1, hl2⟩, e2] at this
    rw [e2]
    exact (Res.ok.inj this).symm
  have key : ConvexAnswers X.rows cs := by
    refine convex_of_max (L := mean.zip (List.replicate mean.length v)) (score := fun x mv => NB.sumLogVar v -
      (List.zipWith (fun c v => c / v) (List.zipWith (fun a m => (a - m) ^ 2) x mv.1) v).sum * (1 / 2)) ?_ ?_
    · refine List.forall₂_iff_get.mpr ⟨h3.length_eq, fun i hi hi' => ?_⟩
      refine firstMax_mono (fun mv h mv' h' => ?_) (h3.get hi hi')
      have hxm : X.rows.get ⟨i, hi⟩ ∈ X.rows := List.get_mem _ _
      rw [← hlog _ hxm mv h, ← hlog _ hxm mv' h']
      have pos : ∀ mv ∈ mean.zip (List.replicate mean.length v), 0 < independentPdf mv.1 mv.2 (X.rows.get ⟨i, hi⟩) := by
        intro mv h
        refine List.prod_pos ?_
        intro a ha
        obtain ⟨n, hn, rfl⟩ := List.mem_iff_getElem.mp ha
        rw [List.getElem_zipWith, List.getElem_zip]
        have hvn : 0 < mv.2[n]'(by rw [List.length_zipWith, List.length_zip] at hn; omega) := by
          have hv2 : ∀ a ∈ mv.2, 0 < a := by rw [(hmem mv h).2]; exact hv
          exact hv2 _ (List.getElem_mem _)
        unfold normalPdf
        have := Real.pi_pos
        positivity
      exact ⟨fun hle => Real.log_le_log (pos mv h) hle, fun he => Real.log_injOn_pos (pos mv h) (pos mv' h') he⟩
    · intro a ha b hb t _ _
      refine ⟨t * (1 - t) * (List.zipWith (fun c v => c / v) (List.zipWith (fun a m => (a - m) ^ 2) a b) v).sum * (1 / 2),
        fun mv h => ?_⟩
      rw [quad_between t a b mv.1 v ((hx a ha).trans (hx b hb).symm) ((hx a ha).trans (hmem mv h).1.symm) ((hx a ha).trans hvl.symm)]
      ring
  intro i j k a b z c hi hj hk hs hci hcj
  rw [List.getElem?_map, Option.map_eq_some_iff] at hci hcj
  obtain ⟨p, hp1, rfl⟩ := hci
  obtain ⟨q, hq1, hq2⟩ := hcj
  obtain rfl : q = p := by exact_mod_cast hq2
  rw [List.getElem?_map, key i j k a b z q hi hj hk hs hp1 hq1]
  rfl

/-- C160: with different variances the regions of Gaussian naive Bayes need not be convex: a class can be chosen on both sides of another
one. -/
theorem C160_gaussian_not_convex : ∃ jll : DMat ℝ,
    NB.gaussianJLL false [1 / 2, 1 / 2] ⟨[[0, 0], [0, 0]], [[1, 1], [100, 100]]⟩ ⟨2, [[-10, -10], [0, 0], [10, 10]]⟩ = .ok jll ∧
    NB.predict jll = .ok [1, 0, 1] ∧ ¬ ConvexAnswers [[(-10 : ℝ), -10], [0, 0], [10, 10]] [(1 : ℝ), 0, 1] := by
  obtain ⟨jll, cs, h1, h2, h3⟩ := C71_predict_ignores_priors (1 / 2) [1 / 2] ⟨[[0, 0], [0, 0]], [[1, 1], [100, 100]]⟩
    ⟨2, [[-10, -10], [0, 0], [10, 10]]⟩ (by simp) (by
      intro r hr
      simp only [List.mem_cons, List.not_mem_nil, or_false] at hr
      rcases hr with rfl | rfl <;> exact ⟨rfl, by simp⟩) (by
      intro r hr
      simp only [List.mem_cons, List.not_mem_nil, or_false] at hr
      rcases hr with rfl | rfl | rfl <;> rfl) rfl rfl
  refine ⟨jll, h1, ?_, ?_⟩
  · rw [h2]
    have hpi := Real.pi_pos
    have hs1 : (0 : ℝ) < Real.sqrt (2 * Real.pi) := Real.sqrt_pos.mpr (by positivity)
    have hs100 : Real.sqrt (2 * Real.pi * 100) = 10 * Real.sqrt (2 * Real.pi) := by
      rw [show 2 * Real.pi * 100 = 10 ^ 2 * (2 * Real.pi) by ring, Real.sqrt_mul (by norm_num), Real.sqrt_sq (by norm_num)]
    have hexp : Real.exp (-50) < 1 / 10 * Real.exp (-(1 / 2)) := by
      rw [show (-50 : ℝ) = -(1 / 2) + -(99 / 2) by norm_num, Real.exp_add, mul_comm]
      refine mul_lt_mul_of_pos_right ?_ (Real.exp_pos _)
      rw [Real.exp_neg, inv_lt_comm₀ (Real.exp_pos _) (by norm_num)]
      have := Real.add_one_le_exp (99 / 2 : ℝ)
      norm_num
      linarith
    have far : ∀ x : ℝ, x = -10 ∨ x = 10 → independentPdf [0, 0] [1, 1] [x, x] < independentPdf [0, 0] [100, 100] [x, x] := by
      intro x hx
      have hx2 : x ^ 2 = 100 := by rcases hx with rfl | rfl <;> norm_num
      have hlt : normalPdf 0 1 x < normalPdf 0 100 x := by
        unfold normalPdf
        rw [hs100, mul_one, mul_one, sub_zero, hx2, show -(100 : ℝ) / 2 = -50 by norm_num,
          show -(100 : ℝ) / (2 * 100) = -(1 / 2) by norm_num, one_div, one_div, mul_inv, mul_comm (10 : ℝ)⁻¹, mul_assoc]
        refine mul_lt_mul_of_pos_left ?_ (inv_pos.mpr hs1)
        simpa [one_div] using hexp
      have h0 : 0 ≤ normalPdf 0 1 x := by unfold normalPdf; positivity
      simp only [independentPdf, List.zip_cons_cons, List.zip_nil_right, List.zipWith_cons_cons, List.zipWith_nil_right, List.prod_cons,
        List.prod_nil, mul_one]
      exact mul_lt_mul'' hlt hlt h0 h0
    have near : independentPdf [0, 0] [100, 100] [0, 0] < independentPdf [0, 0] [1, 1] [0, 0] := by
      have hlt : normalPdf 0 100 0 < normalPdf 0 1 0 := by
        unfold normalPdf
        rw [hs100]
        simp only [sub_zero, ne_eq, OfNat.ofNat_ne_zero, not_false_eq_true, zero_pow, neg_zero, zero_div, Real.exp_zero, mul_one]
        refine one_div_lt_one_div_of_lt hs1 ?_
        linarith
      have h0 : 0 ≤ normalPdf 0 100 0 := by unfold normalPdf; positivity
      simp only [independentPdf, List.zip_cons_cons, List.zip_nil_right, List.zipWith_cons_cons, List.zipWith_nil_right, List.prod_cons,
        List.prod_nil, mul_one]
      exact mul_lt_mul'' hlt hlt h0 h0
    have max1 : ∀ (u w : ℝ) (c : Nat), u < w → IsFirstMax [u, w] c → c = 1 := by
      intro u w c h hc
      refine IsFirstMax.unique hc ⟨w, rfl, fun q a ha => ?_⟩
      match q, ha with
      | 0, ha => obtain rfl := Option.some.inj ha; exact ⟨h.le, fun e => absurd e h.ne⟩
      | 1, ha => obtain rfl := Option.some.inj ha; exact ⟨le_rfl, fun _ => le_rfl⟩
      | q + 2, ha => simp at ha
    have max0 : ∀ (u w : ℝ) (c : Nat), w < u → IsFirstMax [u, w] c → c = 0 := by
      intro u w c h hc
      refine IsFirstMax.unique hc ⟨u, rfl, fun q a ha => ⟨?_, fun _ => Nat.zero_le _⟩⟩
      match q, ha with
      | 0, ha => obtain rfl := Option.some.inj ha; exact le_rfl
      | 1, ha => obtain rfl := Option.some.inj ha; exact h.le
      | q + 2, ha => simp at ha
    match cs, h3 with
    | [a, b, c], .cons ha (.cons hb (.cons hc .nil)) =>
      rw [max1 _ _ a (far (-10) (Or.inl rfl)) ha, max0 _ _ b near hb, max1 _ _ c (far 10 (Or.inr rfl)) hc]
      norm_num
  · intro h
    have := h 0 2 1 [-10, -10] [10, 10] [0, 0] 1 rfl rfl rfl ⟨1 / 2, by norm_num, by norm_num, by norm_num [between]⟩ rfl rfl
    simp at this

/-- Such parameters are fitted. -/
example : NB.fitGaussian 0 [] (⟨2, [[1, 1], [-1, -1], [10, 10], [-10, -10]]⟩ : DMat ℚ) [0, 0, 1, 1] =
    .ok ([(0, 2), (1, 2)], ⟨[[0, 0], [0, 0]], [[1, 1], [100, 100]]⟩) := by decide +kernel

section trees

variable {α : Type} [Field α] [LinearOrder α] [IsStrictOrderedRing α] {R : Type} [LinearOrder R]

open DTree

/-- C160: a classification tree divides the samples among at most `2 ^ (max_depth + 1)` boxes with edges parallel to the axes, and the
probabilities depend on the box only. -/
theorem C160_classifier (start : R) (imp : List α → List α → List α → Res R) (P : Params R) (hm : P.minLeaf = 0) (old : List α)
    (X : DMat α) (hx : X.WF) (y : List α) (hy : y.length = X.nrows) (M : Model α) (h : fit start imp P old X y = .ok M) :
    ∃ L : List (Box α × List (Option α)), L.length ≤ 2 ^ (P.maxDepth + 1) ∧ Divides X.ncols L ∧
      ∀ Q : List (List α), (∀ x ∈ Q, x.length = X.ncols) → ∃ O, predictProb M Q = .ok O ∧
        List.Forall₂ (fun x o => ∀ e ∈ L, e.1.Contains x → o = e.2) Q O := by
  obtain ⟨-, h2⟩ := (DTree.fit_eq_ok start imp P old X y hy M).mp h
  obtain ⟨s1, s2⟩ := answered_spec (probs (α := α)) X.ncols M.root fun x hxl => route_total _ P hm _ X hx y hy 0 M.root h2 x hxl
  refine ⟨answered probs (boxes X.ncols M.root whole), le_trans (List.length_filterMap_le _ _) (boxes_length _ _ _ (fun p v hv =>
    ((C36_classifier start imp P old X hx y hy M h p).1 v hv).1) _), s1, fun Q hQ => ?_⟩
  obtain ⟨O, hO⟩ := C37_total start imp P hm old X hx y hy M h Q hQ
  refine ⟨O, hO, ?_⟩
  rw [predictProb, mapRes_ok_iff] at hO
  refine List.forall₂_iff_get.mpr ⟨hO.length_eq, fun i hi hi' e he hc => ?_⟩
  have hxl := hQ _ (List.get_mem Q ⟨i, hi⟩)
  obtain ⟨v, hv, hev⟩ := s2 _ hxl e he hc
  have := hO.get hi hi'
  rw [hv, Res.bind_ok] at this
  rw [hev, Res.ok.inj this]

/-- C160: likewise for the predictions of a regression tree. -/
theorem C160_regressor (m start : α) (imp : List α → List α → List α → Res α) (P : Params α) (hm : P.minLeaf = 0) (X : DMat α)
    (hx : X.WF) (y : List α) (hy : y.length = X.nrows) (T : Tree α α) (h : fitRegressor m start imp P X y = .ok T) :
    ∃ L : List (Box α × α), L.length ≤ 2 ^ (P.maxDepth + 1) ∧ Divides X.ncols L ∧
      ∀ Q : List (List α), (∀ x ∈ Q, x.length = X.ncols) → ∃ O, predictRegressor T Q = .ok O ∧
        List.Forall₂ (fun x o => ∀ e ∈ L, e.1.Contains x → o = e.2) Q O := by
  have htot : ∀ x : List α, x.length = X.ncols → ∃ v, route x T = .ok v := fun x hxl => route_total _ P hm _ X hx y hy 0 T h x hxl
  obtain ⟨s1, s2⟩ := answered_spec (id : α → α) X.ncols T htot
  refine ⟨answered id (boxes X.ncols T whole), le_trans (List.length_filterMap_le _ _) (boxes_length _ _ _ (fun p v hv =>
    ((C36_regressor m start imp P X hx y hy T h p).1 v hv).1) _), s1, fun Q hQ => ?_⟩
  obtain ⟨O, hO⟩ := KDTree.mapRes_total (f := fun x => route x T) Q fun x hxQ => htot x (hQ x hxQ)
  refine ⟨O, hO, ?_⟩
  rw [mapRes_ok_iff] at hO
  refine List.forall₂_iff_get.mpr ⟨hO.length_eq, fun i hi hi' e he hc => ?_⟩
  have hxl := hQ _ (List.get_mem Q ⟨i, hi⟩)
  obtain ⟨v, hv, hev⟩ := s2 _ hxl e he hc
  have := hO.get hi hi'
  rw [hv] at this
  rw [hev, Res.ok.inj this]
  rfl

/-- Beside C160_classifier: a tree with one split, that is two boxes. -/
example : fit (1 / 1000 : ℚ) giniScore ⟨3, 0, 0, 0⟩ [] (⟨2, [[1, 0], [2, 5], [3, 1], [4, 7]]⟩ : DMat ℚ) [10, 10, 20, 20] =
    .ok ⟨[10, 20], .node [2, 2] (some (0, 5 / 2)) (.node [2, 0] none .null .null) (.node [0, 2] none .null .null)⟩ := by
  decide +kernel

end trees

/-- Beside C160_kmeans: the third sample lies between the first two. -/
example : KMeans.predict [[0, 0], [10, 0]] (⟨2, [[1, 5], [3, -3], [2, 1], [9, 9]]⟩ : DMat ℚ) = .ok [0, 0, 0, 1] ∧
    OnSegment ([1, 5] : List ℚ) [3, -3] [2, 1] := ⟨by decide +kernel, 1 / 2, by norm_num, by norm_num, by norm_num [between]⟩

/-- Beside C160_perceptron and C160_affine: weights of the right length and samples on a segment. -/
example : LinearFit.predictPerceptron true [1, 1, -1] (⟨2, [[1, 5], [3, -1], [2, 2], [-1, 0]]⟩ : DMat ℚ) = .ok [1, 1, 1, 0] ∧
    OnSegment ([1, 5] : List ℚ) [3, -1] [2, 2] := ⟨by decide +kernel, 1 / 2, by norm_num, by norm_num, by norm_num [between]⟩

/-- Beside C160_affine, C160_logistic and C160_softmax: matrices of the required shapes with a sample between two others. -/
example : (⟨2, [[1, 5], [3, -1], [2, 2]]⟩ : DMat ℝ).WF ∧ [(1 : ℝ), 1, -1].length = (⟨2, [[1, 5], [3, -1], [2, 2]]⟩ : DMat ℝ).ncols + 1 ∧
    (⟨2, [[0, 1], [1, 0], [2, -1]]⟩ : DMat ℝ).WF ∧
    (⟨2, [[0, 1], [1, 0], [2, -1]]⟩ : DMat ℝ).nrows = (⟨2, [[1, 5], [3, -1], [2, 2]]⟩ : DMat ℝ).ncols + 1 ∧
    OnSegment ([1, 5] : List ℝ) [3, -1] [2, 2] := by
  refine ⟨by simp [DMat.WF], rfl, by simp [DMat.WF], rfl, 1 / 2, by norm_num, by norm_num, ?_⟩
  norm_num [between]

/-- Beside C160_multinomial and C160_gaussian: the parameters that the fits deliver for four samples of two classes satisfy the
hypotheses. -/
example : NB.fitMultinomial false [] (⟨2, [[3, 0], [1, 1], [0, 2], [0, 4]]⟩ : DMat ℚ) [0, 0, 1, 1] =
      .ok ([(0, 2), (1, 2)], ⟨2, [[4, 1], [0, 6]], [[4, 1], [0, 6]].map List.sum⟩) ∧
    NB.fitGaussian 0 [] (⟨2, [[1, 1], [-1, -1], [9, 4], [11, 6]]⟩ : DMat ℚ) [0, 0, 1, 1] =
      .ok ([(0, 2), (1, 2)], ⟨[[0, 0], [10, 5]], List.replicate 2 [1, 1]⟩) ∧
    NB.priorsOf [((0 : ℚ), 2), (1, 2)] 4 = [1 / 2, 1 / 2] := by decide +kernel

end OpenML
