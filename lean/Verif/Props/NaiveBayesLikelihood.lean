import Verif.Lemmas.NaiveBayesLikelihood
import Verif.Props.NaiveBayes
import Mathlib.Algebra.BigOperators.Group.Finset.Basic

/-!
# Naive Bayes fits have the largest likelihood (C179)
-/

namespace OpenML

open Spec NB Likelihood

namespace Likelihood

theorem range_sum (d : Nat) (f : Nat → ℝ) : ((List.range d).map f).sum = ∑ i ∈ Finset.range d, f i := by
  induction d with
  | zero => simp
  | succ d ih => rw [List.range_succ, List.map_append, List.sum_append, ih, Finset.sum_range_succ]; simp

theorem normalPdf_pos (m v x : ℝ) (hv : 0 < v) : 0 < normalPdf m v x := by
  unfold normalPdf
  positivity

theorem zip_getD (m v : List ℝ) (f : Nat) (hm : f < m.length) (hv : f < v.length) :
    (m.zip v).getD f (0, 0) = (m.getD f 0, v.getD f 0) := by
  rw [List.getD_eq_getElem?_getD, List.getElem?_eq_getElem (by rw [List.length_zip]; omega), Option.getD_some, List.getElem_zip,
    List.getD_eq_getElem?_getD, List.getElem?_eq_getElem hm, Option.getD_some, List.getD_eq_getElem?_getD, List.getElem?_eq_getElem hv,
    Option.getD_some]

theorem getD_pos (v : List ℝ) (h : ∀ a ∈ v, 0 < a) (f : Nat) (hf : f < v.length) : 0 < v.getD f 0 := by
  rw [List.getD_eq_getElem?_getD, List.getElem?_eq_getElem hf, Option.getD_some]
  exact h _ (List.getElem_mem hf)

/-- The logarithm of the likelihood as a sum over the features. -/
theorem log_normalLikelihood (d : Nat) (mean var : List ℝ) (hm : mean.length = d) (hv : var.length = d) (hp : ∀ v ∈ var, 0 < v)
    (rows : List (List ℝ)) (hr : ∀ x ∈ rows, x.length = d) :
    0 < normalLikelihood mean var rows ∧ Real.log (normalLikelihood mean var rows) =
      ∑ f ∈ Finset.range d, ((featureOf rows f).map fun a => Real.log (normalPdf (mean.getD f 0) (var.getD f 0) a)).sum := by
  have one : ∀ x ∈ rows, 0 < independentPdf mean var x ∧ Real.log (independentPdf mean var x) =
      ∑ f ∈ Finset.range d, Real.log (normalPdf (mean.getD f 0) (var.getD f 0) (x.getD f 0)) := by
    intro x hx
    have hpos : ∀ a ∈ List.zipWith (fun (mv : ℝ × ℝ) a => normalPdf mv.1 mv.2 a) (mean.zip var) x, 0 < a := by
      intro a ha
      obtain ⟨i, hi, rfl⟩ := List.mem_iff_getElem.mp ha
      rw [List.getElem_zipWith, List.getElem_zip]
      exact normalPdf_pos _ _ _ (hp _ (List.getElem_mem _))
    obtain ⟨h1, h2⟩ := log_prod_pos _ hpos
    refine ⟨h1, ?_⟩
    unfold independentPdf
    rw [h2, List.map_zipWith, zipWith_sum (fun (mv : ℝ × ℝ) a => Real.log (normalPdf mv.1 mv.2 a)) (0, 0) d (mean.zip var) x
      (by rw [List.length_zip, hm, hv, Nat.min_self]) (hr x hx)]
    refine Finset.sum_congr rfl fun f hf => ?_
    rw [Finset.mem_range] at hf
    rw [zip_getD _ _ f (by omega) (by omega)]
  obtain ⟨h1, h2⟩ := log_prod_pos (rows.map (independentPdf mean var)) (fun a ha => by
    obtain ⟨x, hx, rfl⟩ := List.mem_map.mp ha
    exact (one x hx).1)
  refine ⟨h1, ?_⟩
  unfold normalLikelihood
  rw [h2, List.map_map, show rows.map (Real.log ∘ independentPdf mean var) = _ from List.map_congr_left fun x hx => (one x hx).2,
    sum_swap rows d fun f x => Real.log (normalPdf (mean.getD f 0) (var.getD f 0) (x.getD f 0))]
  refine Finset.sum_congr rfl fun f _ => ?_
  rw [featureOf, List.map_map]
  rfl

/-- The mean and the mean squared deviation of every feature. -/
theorem normal_rows (d : Nat) (rows : List (List ℝ)) (hne : rows ≠ []) (hr : ∀ x ∈ rows, x.length = d)
    (hs : ∀ f < d, 0 < meanSquaredDeviation (featureOf rows f)) (mean var : List ℝ) (hm : mean.length = d) (hv : var.length = d)
    (hp : ∀ v ∈ var, 0 < v) (h : (mean, var) ≠ ((List.range d).map fun f => average (featureOf rows f),
      (List.range d).map fun f => meanSquaredDeviation (featureOf rows f))) :
    normalLikelihood mean var rows < normalLikelihood ((List.range d).map fun f => average (featureOf rows f))
      ((List.range d).map fun f => meanSquaredDeviation (featureOf rows f)) rows := by
  obtain ⟨a1, a2⟩ := log_normalLikelihood d mean var hm hv hp rows hr
  obtain ⟨b1, b2⟩ := log_normalLikelihood d ((List.range d).map fun f => average (featureOf rows f))
    ((List.range d).map fun f => meanSquaredDeviation (featureOf rows f)) (by simp) (by simp) (fun v hv => by
      obtain ⟨f, hf, rfl⟩ := List.mem_map.mp hv
      exact hs f (List.mem_range.mp hf)) rows hr
  have get : ∀ (g : Nat → ℝ) f, f < d → ((List.range d).map g).getD f 0 = g f := fun g f hf => by
    simp [List.getD_eq_getElem?_getD, hf]
  have hle : ∀ f ∈ Finset.range d, _ := fun f hf =>
    normal_best (featureOf rows f) (by simpa [featureOf] using hne) (hs f (Finset.mem_range.mp hf)) (mean.getD f 0) (var.getD f 0)
      (getD_pos var hp f (by rw [hv]; exact Finset.mem_range.mp hf))
  rw [← Real.log_lt_log_iff a1 b1, a2, b2]
  have e : ∑ f ∈ Finset.range d, ((featureOf rows f).map fun a => Real.log (normalPdf
      (((List.range d).map fun f => average (featureOf rows f)).getD f 0)
      (((List.range d).map fun f => meanSquaredDeviation (featureOf rows f)).getD f 0) a)).sum =
      ∑ f ∈ Finset.range d, ((featureOf rows f).map fun a => Real.log (normalPdf (average (featureOf rows f))
        (meanSquaredDeviation (featureOf rows f)) a)).sum :=
    Finset.sum_congr rfl fun f hf => by rw [get _ f (Finset.mem_range.mp hf), get _ f (Finset.mem_range.mp hf)]
  rw [e]
  refine Finset.sum_lt_sum (fun f hf => (hle f hf).1) ?_
  by_contra hno
  push Not at hno
  refine h ?_
  have eq : ∀ f < d, mean.getD f 0 = average (featureOf rows f) ∧ var.getD f 0 = meanSquaredDeviation (featureOf rows f) := fun f hf =>
    (hle f (Finset.mem_range.mpr hf)).2 (le_antisymm (hle f (Finset.mem_range.mpr hf)).1 (hno f (Finset.mem_range.mpr hf)))
  have ext : ∀ (l : List ℝ) (g : Nat → ℝ), l.length = d → (∀ f < d, l.getD f 0 = g f) → l = (List.range d).map g := by
    intro l g hl hg
    refine List.ext_getElem (by simp [hl]) fun i h1 h2 => ?_
    have := hg i (by omega)
    rw [List.getD_eq_getElem?_getD, List.getElem?_eq_getElem h1, Option.getD_some] at this
    simp [this]
  rw [ext mean _ hm fun f hf => (eq f hf).1, ext var _ hv fun f hf => (eq f hf).2]

/-- The logarithm of the likelihood of counts. -/
theorem log_countLikelihood (d : Nat) (q : List ℝ) (hq : q.length = d) (hp : ∀ p ∈ q, 0 < p) (rows : List (List ℝ))
    (hr : ∀ x ∈ rows, x.length = d) : 0 < countLikelihood q rows ∧
      Real.log (countLikelihood q rows) = ∑ f ∈ Finset.range d, (featureOf rows f).sum * Real.log (q.getD f 0) := by
  have one : ∀ x ∈ rows, 0 < (List.zipWith (fun p a => p ^ a) q x).prod ∧ Real.log (List.zipWith (fun p a => p ^ a) q x).prod =
      ∑ f ∈ Finset.range d, x.getD f 0 * Real.log (q.getD f 0) := by
    intro x hx
    have hpos : ∀ a ∈ List.zipWith (fun (p a : ℝ) => p ^ a) q x, 0 < a := by
      intro a ha
      obtain ⟨i, hi, rfl⟩ := List.mem_iff_getElem.mp ha
      rw [List.getElem_zipWith]
      exact Real.rpow_pos_of_pos (hp _ (List.getElem_mem _)) _
    obtain ⟨h1, h2⟩ := log_prod_pos _ hpos
    refine ⟨h1, ?_⟩
    rw [h2, List.map_zipWith, zipWith_sum (fun p a => Real.log (p ^ a)) 0 d q x hq (hr x hx)]
    refine Finset.sum_congr rfl fun f hf => ?_
    rw [Finset.mem_range] at hf
    exact Real.log_rpow (getD_pos q hp f (by omega)) _
  obtain ⟨h1, h2⟩ := log_prod_pos (rows.map fun x => (List.zipWith (fun p a => p ^ a) q x).prod) (fun a ha => by
    obtain ⟨x, hx, rfl⟩ := List.mem_map.mp ha
    exact (one x hx).1)
  refine ⟨h1, ?_⟩
  unfold countLikelihood
  rw [h2, List.map_map, show rows.map (Real.log ∘ fun x => (List.zipWith (fun p a => p ^ a) q x).prod) = _ from
      List.map_congr_left fun x hx => (one x hx).2, sum_swap rows d fun f x => x.getD f 0 * Real.log (q.getD f 0)]
  refine Finset.sum_congr rfl fun f _ => ?_
  rw [featureOf, List.sum_map_mul_right]

theorem log_seenBefore (alpha : ℝ) (d : Nat) (q : List ℝ) (hq : q.length = d) (hp : ∀ p ∈ q, 0 < p) : 0 < seenBefore alpha q ∧
    Real.log (seenBefore alpha q) = ∑ f ∈ Finset.range d, alpha * Real.log (q.getD f 0) := by
  have := log_countLikelihood d q hq hp [List.replicate d alpha] (by simp)
  have e : countLikelihood q [List.replicate d alpha] = seenBefore alpha q := by
    unfold countLikelihood seenBefore
    simp only [List.map_cons, List.map_nil, List.prod_cons, List.prod_nil, mul_one]
    congr 1
    refine List.ext_getElem (by simp [hq]) fun i h1 h2 => by simp
  rw [e] at this
  refine ⟨this.1, this.2.trans (Finset.sum_congr rfl fun f hf => ?_)⟩
  rw [Finset.mem_range] at hf
  simp [featureOf, List.getD_eq_getElem?_getD, hf]

end Likelihood

/-- C179: Gaussian naive Bayes without smoothing, first fit: among all means and positive variances, the fitted ones of a class give the
samples of the class the largest likelihood, and all others give a smaller one. -/
theorem C179_gaussian (X : DMat ℝ) (hx : X.WF) (y : List ℝ) (hy : y.length = X.nrows) (hn : 0 < X.nrows) (hd : 2 ≤ X.ncols) :
    ∃ m g, fitGaussian 0 [] X y = .ok (m, g) ∧ g.mean.length = (classesOf m).length ∧ g.var.length = (classesOf m).length ∧
      (∀ b, b ∈ classesOf m ↔ b ∈ y) ∧
      ∀ (c : Nat) (b : ℝ) (mean var : List ℝ), (classesOf m)[c]? = some b → g.mean[c]? = some mean → g.var[c]? = some var →
        (∀ v ∈ var, 0 < v) →
        ∀ mean' var' : List ℝ, mean'.length = X.ncols → var'.length = X.ncols → (∀ v ∈ var', 0 < v) → (mean', var') ≠ (mean, var) →
          normalLikelihood mean' var' (classRows X.rows y b) < normalLikelihood mean var (classRows X.rows y b) := by
  obtain ⟨m, g, top, h1, h2, h3, h4, h5, h6, h7⟩ := C71_fit 0 X hx y hy hn hd
  refine ⟨m, g, h1, by rw [h4, List.length_map], by rw [h5, List.length_map], h3, ?_⟩
  intro c b mean var hc hmean hvar hpos mean' var' hm' hv' hp' hne
  rw [h4, List.getElem?_map, hc, Option.map_some, Option.some.injEq] at hmean
  rw [h5, List.getElem?_map, hc, Option.map_some, Option.some.injEq] at hvar
  simp only [zero_mul, add_zero] at hvar
  subst hmean hvar
  have hb : b ∈ y := (h3 b).mp (List.mem_of_getElem? hc)
  refine normal_rows X.ncols _ ?_ ?_ (fun f hf => hpos _ (List.mem_map.mpr ⟨f, List.mem_range.mpr hf, rfl⟩)) mean' var' hm' hv' hp' hne
  · obtain ⟨i, hi, rfl⟩ := List.mem_iff_getElem.mp hb
    intro hnil
    have hi' : i < X.rows.length := by rw [hy] at hi; exact hi
    have : X.rows[i] ∈ classRows X.rows y y[i] := by
      refine List.mem_map.mpr ⟨(X.rows[i], y[i]), List.mem_filter.mpr ⟨?_, by simp⟩, rfl⟩
      exact List.mem_iff_getElem.mpr ⟨i, by rw [List.length_zip]; omega, by rw [List.getElem_zip]⟩
    rw [hnil] at this
    exact absurd this List.not_mem_nil
  · intro x hxm
    obtain ⟨e, he, rfl⟩ := List.mem_map.mp hxm
    exact hx _ (List.of_mem_zip (List.mem_of_mem_filter he)).1

/-- Example for `C179_gaussian`: two classes with two samples each; all fitted variances are positive. -/
example : fitGaussian 0 [] (⟨2, [[1, 2], [3, 6], [0, 1], [2, 2]]⟩ : DMat ℚ) [7, 7, 5, 5] =
    .ok ([(5, 2), (7, 2)], ⟨[[1, 3 / 2], [2, 4]], [[1, 1 / 4], [1, 4]]⟩) := by
  decide +kernel

/-- C179: multinomial naive Bayes with smoothing `alpha`, first fit: among all positive feature probabilities with sum at most 1, those
that predictions use for a class give the largest product of the likelihood of the samples of the class and of the density that
corresponds to having seen every feature `alpha` times before. -/
theorem C179_multinomial (alpha : ℝ) (ha : 0 < alpha) (X : DMat ℝ) (hx : X.WF) (hc : ∀ r ∈ X.rows, ∀ a ∈ r, 0 ≤ a) (y : List ℝ)
    (hy : y.length = X.nrows) (hd : 2 ≤ X.ncols) :
    ∃ m k, fitMultinomial false [] X y = .ok (m, k) ∧ k.feature.length = (classesOf m).length ∧ (∀ b, b ∈ classesOf m ↔ b ∈ y) ∧
      ∀ (c : Nat) (b : ℝ) (counts : List ℝ), (classesOf m)[c]? = some b → k.feature[c]? = some counts →
        (∀ x : List ℝ, x.length = X.ncols → multinomialLL alpha k.numFeatures counts counts.sum x =
          .ok (Real.log (countLikelihood (counts.map fun n => (n + alpha) / (counts.sum + alpha * (X.ncols : ℝ))) [x]))) ∧
        ∀ q : List ℝ, q.length = X.ncols → (∀ p ∈ q, 0 < p) → q.sum ≤ 1 →
          q ≠ counts.map (fun n => (n + alpha) / (counts.sum + alpha * (X.ncols : ℝ))) →
          countLikelihood q (classRows X.rows y b) * seenBefore alpha q <
            countLikelihood (counts.map fun n => (n + alpha) / (counts.sum + alpha * (X.ncols : ℝ))) (classRows X.rows y b) *
              seenBefore alpha (counts.map fun n => (n + alpha) / (counts.sum + alpha * (X.ncols : ℝ))) := by
  obtain ⟨m, k, h1, h2, h3, h4, h5, h6⟩ := C44_counts X hx y hy hd
  refine ⟨m, k, h1, by rw [h3, List.length_map], h6, ?_⟩
  intro c b counts hcb hcount
  rw [h3, List.getElem?_map, hcb, Option.map_some, Option.some.injEq] at hcount
  have hrow : ∀ x ∈ classRows X.rows y b, x ∈ X.rows := fun x hxm => by
    obtain ⟨e, he, rfl⟩ := List.mem_map.mp hxm
    exact (List.of_mem_zip (List.mem_of_mem_filter he)).1
  have hlen : counts.length = X.ncols := by rw [← hcount]; simp
  have hget : ∀ f < X.ncols, counts.getD f 0 = (featureOf (classRows X.rows y b) f).sum := fun f hf => by
    rw [← hcount]
    simp [List.getD_eq_getElem?_getD, hf]
  have hnn : ∀ f, 0 ≤ (featureOf (classRows X.rows y b) f).sum := fun f => List.sum_nonneg fun a ha' => by
    obtain ⟨x, hxm, rfl⟩ := List.mem_map.mp ha'
    by_cases hf : f < x.length
    · rw [List.getD_eq_getElem?_getD, List.getElem?_eq_getElem hf, Option.getD_some]
      exact hc x (hrow x hxm) _ (List.getElem_mem hf)
    · rw [List.getD_eq_getElem?_getD, List.getElem?_eq_none (by omega), Option.getD_none]
  have hcn : ∀ a ∈ counts, 0 ≤ a := fun a ha' => by
    rw [← hcount] at ha'
    obtain ⟨f, _, rfl⟩ := List.mem_map.mp ha'
    exact hnn f
  have hne : counts ≠ [] := by
    intro h
    rw [h] at hlen
    simp at hlen
    omega
  have hsum : counts.sum = ∑ f ∈ Finset.range X.ncols, (featureOf (classRows X.rows y b) f).sum := by
    rw [← hcount, ← range_sum]
  obtain ⟨p1, p2, p3⟩ := C44_smoothed alpha ha counts hcn hne
  rw [hlen] at p1 p2 p3
  refine ⟨fun x hxl => ?_, fun q hq hqp hq1 hqne => ?_⟩
  · rw [h2, p3 x hxl]
    simp [countLikelihood]
  set p := counts.map fun n => (n + alpha) / (counts.sum + alpha * (X.ncols : ℝ)) with hpdef
  have hpl : p.length = X.ncols := by rw [hpdef, List.length_map, hlen]
  have hrl : ∀ x ∈ classRows X.rows y b, x.length = X.ncols := fun x hxm => hx x (hrow x hxm)
  obtain ⟨a1, a2⟩ := log_countLikelihood X.ncols q hq hqp _ hrl
  obtain ⟨b1, b2⟩ := log_countLikelihood X.ncols p hpl p1 _ hrl
  obtain ⟨c1, c2⟩ := log_seenBefore alpha X.ncols q hq hqp
  obtain ⟨d1, d2⟩ := log_seenBefore alpha X.ncols p hpl p1
  have hS : ∑ f ∈ Finset.range X.ncols, ((featureOf (classRows X.rows y b) f).sum + alpha) = counts.sum + alpha * (X.ncols : ℝ) := by
    rw [Finset.sum_add_distrib, ← hsum, Finset.sum_const, Finset.card_range, nsmul_eq_mul, mul_comm]
  have hpget : ∀ f < X.ncols, p.getD f 0 = ((featureOf (classRows X.rows y b) f).sum + alpha) / (counts.sum + alpha * (X.ncols : ℝ)) :=
    fun f hf => by
      rw [← hget f hf, hpdef]
      simp [List.getD_eq_getElem?_getD, hlen, hf]
  have hqs : ∑ f ∈ Finset.range X.ncols, q.getD f 0 ≤ 1 := by
    have : q.sum = ∑ f ∈ Finset.range X.ncols, q.getD f 0 := by
      rw [← range_sum]
      congr 1
      refine List.ext_getElem (by simp [hq]) fun i h1 h2 => ?_
      simp [List.getD_eq_getElem?_getD, h1]
    rw [← this]
    exact hq1
  obtain ⟨g1, g2⟩ := gibbs (Finset.range X.ncols) (fun f => (featureOf (classRows X.rows y b) f).sum + alpha) (fun f => q.getD f 0)
    (fun f _ => by have := hnn f; linarith) (fun f hf => getD_pos q hqp f (by rw [hq]; exact Finset.mem_range.mp hf))
    ⟨0, Finset.mem_range.mpr (by omega)⟩ hqs
  rw [hS] at g1 g2
  have el : Real.log (countLikelihood q (classRows X.rows y b) * seenBefore alpha q) =
      ∑ f ∈ Finset.range X.ncols, ((featureOf (classRows X.rows y b) f).sum + alpha) * Real.log (q.getD f 0) := by
    rw [Real.log_mul a1.ne' c1.ne', a2, c2, ← Finset.sum_add_distrib]
    exact Finset.sum_congr rfl fun f _ => by ring
  have er : Real.log (countLikelihood p (classRows X.rows y b) * seenBefore alpha p) =
      ∑ f ∈ Finset.range X.ncols, ((featureOf (classRows X.rows y b) f).sum + alpha) *
        Real.log (((featureOf (classRows X.rows y b) f).sum + alpha) / (counts.sum + alpha * (X.ncols : ℝ))) := by
    rw [Real.log_mul b1.ne' d1.ne', b2, d2, ← Finset.sum_add_distrib]
    exact Finset.sum_congr rfl fun f hf => by rw [hpget f (Finset.mem_range.mp hf)]; ring
  rw [← Real.log_lt_log_iff (mul_pos a1 c1) (mul_pos b1 d1), el, er]
  refine lt_of_le_of_ne g1 fun he => hqne ?_
  refine List.ext_getElem (by rw [hq, hpl]) fun i h1 h2 => ?_
  have := g2 he i (Finset.mem_range.mpr (by omega))
  rw [← hpget i (by omega)] at this
  rwa [List.getD_eq_getElem?_getD, List.getElem?_eq_getElem h1, Option.getD_some, List.getD_eq_getElem?_getD,
    List.getElem?_eq_getElem h2, Option.getD_some] at this

/-- Example for `C179_multinomial`: the fit of the example for C44 with `alpha` 1. The class 7 has the counts 5 and 2, so that predictions use
2/3 and 1/3, and the exponents with those seen before are 6 and 3; equal probabilities give less. -/
example : fitMultinomial false [] (⟨2, [[1, 2], [0, 3], [4, 0]]⟩ : DMat ℚ) [7, 5, 7] =
    .ok ([(5, 1), (7, 2)], ⟨2, [[0, 3], [5, 2]], [3, 7]⟩) ∧
    ([5, 2].map fun n : ℚ => (n + 1) / (7 + 1 * 2)) = [2 / 3, 1 / 3] ∧ (1 / 2 : ℚ) ^ 6 * (1 / 2) ^ 3 < (2 / 3) ^ 6 * (1 / 3) ^ 3 := by
  decide +kernel

/-- C179: the class probabilities of a first fit give the labels the largest likelihood among all positive class probabilities with sum at
most 1. -/
theorem C179_priors (y : List ℝ) (hy : y ≠ []) :
    ∃ P : ℝ → ℝ, priorsOf (labelMapAfter [y]) y.length = (classesOf (labelMapAfter [y])).map P ∧
      ∀ Q : ℝ → ℝ, (∀ b ∈ y, 0 < Q b) → ((classesOf (labelMapAfter [y])).map Q).sum ≤ 1 → (∃ b ∈ y, Q b ≠ P b) →
        (y.map Q).prod < (y.map P).prod := by
  obtain ⟨h1, h2⟩ := C42_classes [y]
  have hp := (C42_priors [] y hy).1
  simp only [List.nil_append, List.flatten_cons, List.flatten_nil, List.append_nil] at hp
  have hn : (0 : ℝ) < y.length := by
    have := List.length_pos_of_ne_nil hy
    positivity
  have hcl : ∀ b, b ∈ classesOf (labelMapAfter [y]) ↔ b ∈ y.toFinset := fun b => by rw [h2 b]; simp
  have hsum : ∀ f : ℝ → ℝ, ((classesOf (labelMapAfter [y])).map f).sum = ∑ b ∈ y.toFinset, f b := by
    intro f
    have hnd : (classesOf (labelMapAfter [y])).Nodup := h1.imp fun h => h.ne
    rw [← List.sum_toFinset f hnd]
    congr 1
    ext b
    rw [List.mem_toFinset, hcl b]
  refine ⟨fun b => (y.count b : ℝ) / y.length, ?_, fun Q hQ hQ1 hne => ?_⟩
  · have aux : ∀ (ks ps : List ℝ), List.Forall₂ (fun k p => p = ((y.count k : Nat) : ℝ) / (y.length : ℝ)) ks ps →
        ps = ks.map fun b => (y.count b : ℝ) / y.length := by
      intro ks ps h
      induction h with
      | nil => rfl
      | cons h _ ih => rw [List.map_cons, h, ih]
    exact aux _ _ hp
  have hcount : ∀ b ∈ y.toFinset, (0 : ℝ) < y.count b := fun b hb => by
    exact_mod_cast List.count_pos_iff.mpr (List.mem_toFinset.mp hb)
  have hlog : ∀ f : ℝ → ℝ, (∀ b ∈ y, 0 < f b) → 0 < (y.map f).prod ∧ Real.log (y.map f).prod = ∑ b ∈ y.toFinset, y.count b * Real.log (f b) := by
    intro f hf
    obtain ⟨a, b⟩ := log_prod_pos (y.map f) (fun a ha => by
      obtain ⟨x, hx, rfl⟩ := List.mem_map.mp ha
      exact hf x hx)
    refine ⟨a, ?_⟩
    rw [b, List.map_map, Finset.sum_list_map_count]
    exact Finset.sum_congr rfl fun b _ => by rw [nsmul_eq_mul]; rfl
  have htot : ∑ b ∈ y.toFinset, (y.count b : ℝ) = y.length := by
    have := Finset.sum_list_map_count y (fun _ => (1 : ℝ))
    simp at this
    exact this.symm
  obtain ⟨g1, g2⟩ := gibbs y.toFinset (fun b => (y.count b : ℝ)) Q hcount (fun b hb => hQ b (List.mem_toFinset.mp hb))
    (by obtain ⟨b, hb⟩ := List.exists_mem_of_ne_nil y hy; exact ⟨b, List.mem_toFinset.mpr hb⟩) (by rw [← hsum]; exact hQ1)
  rw [htot] at g1 g2
  obtain ⟨a1, a2⟩ := hlog Q hQ
  obtain ⟨b1, b2⟩ := hlog (fun b => (y.count b : ℝ) / y.length) (fun b hb => div_pos (hcount b (List.mem_toFinset.mpr hb)) hn)
  rw [← Real.log_lt_log_iff a1 b1, a2, b2]
  refine lt_of_le_of_ne g1 fun he => ?_
  obtain ⟨b, hb, hbne⟩ := hne
  exact hbne (g2 he b (List.mem_toFinset.mpr hb))

/-- Example for `C179_priors`: labels 2, 1, 2, 2. -/
example : classesOf (labelMapAfter ([[2, 1, 2, 2]] : List (List ℚ))) = [1, 2] ∧
    priorsOf (labelMapAfter ([[2, 1, 2, 2]] : List (List ℚ))) 4 = [1 / 4, 3 / 4] ∧ (1 / 2 : ℚ) ^ 4 < 1 / 4 * (3 / 4) ^ 3 := by
  decide +kernel

end OpenML
