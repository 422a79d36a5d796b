import Verif.Model.SaturationNB
import Verif.Props.Saturation
import Verif.Props.NaiveBayes

/-!
# Gaussian naive Bayes with infinities and NaN (C140)
-/

namespace OpenML

open Saturation Rounding

namespace SaturationNB

variable {V : Env}

theorem rnd_eq_zero {x : ℝ} : V.rnd x = 0 ↔ x = 0 := by
  rcases lt_trichotomy x 0 with h | rfl | h
  · exact iff_of_false (V.rnd_neg h).ne h.ne
  · simp [V.rnd_zero]
  · exact iff_of_false (V.rnd_pos h).ne' h.ne'

theorem add_nan (a : XF) : XF.add V a .nan = .nan := by cases a <;> rfl

theorem nan_add (a : XF) : XF.add V .nan a = .nan := by cases a <;> rfl

theorem logVariance_pos {v : ℝ} (h : 0 < v) : ∃ r, logVariance V v = .fin r := by
  have h1 := V.rnd_pos (mul_pos (V.rnd_pos (mul_pos h two_pos)) (V.rnd_pos Real.pi_pos))
  exact ⟨_, by rw [logVariance, XF.log, if_neg h1.ne', if_neg (not_lt.mpr h1.le)]⟩

theorem logVariance_zero : logVariance V 0 = .ninf := by
  rw [logVariance, zero_mul, V.rnd_zero, zero_mul, V.rnd_zero, XF.log, if_pos rfl]

theorem logVariance_neg {v : ℝ} (h : v < 0) : logVariance V v = .nan := by
  have h1 := V.rnd_neg (mul_neg_of_neg_of_pos (V.rnd_neg (mul_neg_of_neg_of_pos h two_pos)) (V.rnd_pos Real.pi_pos))
  rw [logVariance, XF.log, if_neg h1.ne, if_pos h1]

theorem reduced_zero (a m : ℝ) : reduced V a m 0 = .nan ∨ reduced V a m 0 = .pinf := by
  unfold reduced XF.quot
  rw [if_pos rfl]
  split
  · exact Or.inl rfl
  · rename_i h
    rw [if_pos (lt_of_le_of_ne (V.rnd_nonneg (mul_self_nonneg _)) (Ne.symm h))]
    exact Or.inr rfl

theorem reduced_fin (a m : ℝ) {v : ℝ} (h : v ≠ 0) : ∃ r, reduced V a m v = .fin r := by
  unfold reduced XF.quot
  rw [if_neg h]
  exact ⟨_, rfl⟩

theorem reducedRow_mem {x mean var : List ℝ} {q : XF} (h : q ∈ reducedRow V x mean var) : ∃ a m, ∃ v ∈ var, q = reduced V a m v := by
  induction x generalizing mean var with
  | nil => simp [reducedRow] at h
  | cons a x ih =>
    match mean, var with
    | [], _ => simp [reducedRow] at h
    | _ :: _, [] => simp [reducedRow] at h
    | m :: mean, v :: var =>
      rw [reducedRow, List.mem_cons] at h
      rcases h with rfl | h
      · exact ⟨a, m, v, by simp, rfl⟩
      · obtain ⟨a', m', v', hv, e⟩ := ih h
        exact ⟨a', m', v', List.mem_cons_of_mem _ hv, e⟩

theorem mem_reducedRow {x mean var : List ℝ} (h1 : mean.length = x.length) (h2 : var.length = x.length) {v : ℝ} (hv : v ∈ var) :
    ∃ a m, reduced V a m v ∈ reducedRow V x mean var := by
  induction x generalizing mean var with
  | nil =>
    rw [List.length_nil, List.length_eq_zero_iff] at h2
    rw [h2] at hv
    simp at hv
  | cons a x ih =>
    match mean, var, h1, h2 with
    | m :: mean, w :: var, h1, h2 =>
      rw [List.mem_cons] at hv
      rcases hv with rfl | hv
      · exact ⟨a, m, by simp [reducedRow]⟩
      · obtain ⟨a', m', h⟩ := ih (by simpa using h1) (by simpa using h2) hv
        exact ⟨a', m', by rw [reducedRow]; exact List.mem_cons_of_mem _ h⟩

/-- A sum of values that are not plus infinity, one of them minus infinity. -/
theorem summedX_low {l : List XF} {s : XF} (h : SummedX V l s) (hp : XF.pinf ∉ l) :
    (XF.ninf ∈ l → s = .ninf ∨ s = .nan) ∧ s ≠ .pinf := by
  induction h with
  | nil => simp
  | single x =>
    refine ⟨fun h => ?_, fun h => hp (by simp [h])⟩
    simp only [List.mem_singleton] at h
    exact Or.inl h.symm
  | @add l r m a b _ _ _ _ hm ih1 ih2 =>
    have hl : XF.pinf ∉ l := fun h => hp (hm.mem_iff.mpr (List.mem_append_left _ h))
    have hr : XF.pinf ∉ r := fun h => hp (hm.mem_iff.mpr (List.mem_append_right _ h))
    have h1 := ih1 hl
    have h2 := ih2 hr
    constructor
    · intro h
      rcases List.mem_append.mp (hm.mem_iff.mp h) with h | h
      · rcases h1.1 h with rfl | rfl
        · cases b <;> simp_all [XF.add]
        · exact Or.inr (nan_add _)
      · rcases h2.1 h with rfl | rfl
        · cases a <;> simp_all [XF.add]
        · exact Or.inr (add_nan _)
    · cases a <;> cases b <;> simp_all [XF.add]

theorem neg_pinf (l : List XF) : XF.pinf ∈ l ↔ XF.ninf ∈ l.map XF.neg := by
  rw [List.mem_map]
  constructor
  · exact fun h => ⟨_, h, rfl⟩
  · rintro ⟨a, ha, h⟩
    cases a <;> simp_all [XF.neg]

/-- A sum of values that are not minus infinity, one of them plus infinity. -/
theorem summedX_high {l : List XF} {s : XF} (h : SummedX V l s) (hp : XF.ninf ∉ l) :
    (XF.pinf ∈ l → s = .pinf ∨ s = .nan) ∧ s ≠ .ninf := by
  induction h with
  | nil => simp
  | single x =>
    refine ⟨fun h => ?_, fun h => hp (by simp [h])⟩
    simp only [List.mem_singleton] at h
    exact Or.inl h.symm
  | @add l r m a b _ _ _ _ hm ih1 ih2 =>
    have hl : XF.ninf ∉ l := fun h => hp (hm.mem_iff.mpr (List.mem_append_left _ h))
    have hr : XF.ninf ∉ r := fun h => hp (hm.mem_iff.mpr (List.mem_append_right _ h))
    have h1 := ih1 hl
    have h2 := ih2 hr
    constructor
    · intro h
      rcases List.mem_append.mp (hm.mem_iff.mp h) with h | h
      · rcases h1.1 h with rfl | rfl
        · cases b <;> simp_all [XF.add]
        · exact Or.inr (nan_add _)
      · rcases h2.1 h with rfl | rfl
        · cases a <;> simp_all [XF.add]
        · exact Or.inr (add_nan _)
    · cases a <;> cases b <;> simp_all [XF.add]

theorem summedX_fin {l : List XF} {s : XF} (h : SummedX V l s) (h0 : ∀ x ∈ l, ∃ r, x = .fin r) : ∃ r, s = .fin r := by
  obtain ⟨r, h, _⟩ := summedX_val h h0
  exact ⟨r, h⟩

theorem logPrior {p : ℝ} (h : 0 < p) : ∃ r, XF.log V p = .fin r := ⟨_, by rw [XF.log, if_neg h.ne', if_neg (not_lt.mpr h.le)]⟩

theorem forall_fin {β : Type} {f : β → XF} {l : List β} (h : ∀ x ∈ l, ∃ r, f x = .fin r) : ∃ rs : List ℝ, l.map f = rs.map .fin := by
  induction l with
  | nil => exact ⟨[], rfl⟩
  | cons a l ih =>
    obtain ⟨r, hr⟩ := h a (by simp)
    obtain ⟨rs, hrs⟩ := ih fun x hx => h x (by simp [hx])
    exact ⟨r :: rs, by simp [hr, hrs]⟩

end SaturationNB

open SaturationNB

/-- C140: the score of a class is a number if all its variances are positive, and NaN for every sample otherwise. -/
theorem C140_class (V : Env) (prior : ℝ) (hp : 0 < prior) (mean var x : List ℝ) (hm : mean.length = x.length)
    (hv : var.length = x.length) :
    (∃ w, JointLogLikelihood V prior mean var x w) ∧ ∀ w, JointLogLikelihood V prior mean var x w →
      ((∀ v ∈ var, 0 < v) → ∃ r, w = .fin r) ∧ ((∃ v ∈ var, v ≤ 0) → w = .nan) := by
  constructor
  · obtain ⟨s, hs⟩ := exists_summedX V (var.map (logVariance V))
    obtain ⟨q, hq⟩ := exists_summedX V (reducedRow V x mean var)
    exact ⟨_, hm, hv, s, q, hs, hq, rfl⟩
  · rintro w ⟨-, -, s, q, hs, hq, rfl⟩
    obtain ⟨lp, hlp⟩ := logPrior (V := V) hp
    constructor
    · intro hpos
      obtain ⟨a, rfl⟩ := summedX_fin hs fun y hy => by
        obtain ⟨v, hv, rfl⟩ := List.mem_map.mp hy
        exact logVariance_pos (hpos v hv)
      obtain ⟨b, rfl⟩ := summedX_fin hq fun y hy => by
        obtain ⟨a, m, v, hv, rfl⟩ := reducedRow_mem hy
        exact reduced_fin a m (hpos v hv).ne'
      rw [hlp]
      exact ⟨_, rfl⟩
    · rintro ⟨v, hv0, hle⟩
      rcases hle.lt_or_eq with hneg | rfl
      · have : s = .nan := summedX_nan hs (List.mem_map.mpr ⟨v, hv0, logVariance_neg hneg⟩)
        rw [this]
        rfl
      · have h1 := (summedX_low hs (fun h => by
          obtain ⟨v', _, h⟩ := List.mem_map.mp h
          unfold logVariance XF.log at h
          split at h
          · cases h
          · split at h <;> cases h)).1 (List.mem_map.mpr ⟨0, hv0, logVariance_zero⟩)
        obtain ⟨a, m, hr⟩ := mem_reducedRow (V := V) hm hv hv0
        have hn : XF.ninf ∉ reducedRow V x mean var := fun h => by
          obtain ⟨a, m, v, _, e⟩ := reducedRow_mem h
          by_cases h0 : v = 0
          · subst h0
            rcases reduced_zero (V := V) a m with h | h <;> rw [h] at e <;> cases e
          · obtain ⟨r, hr⟩ := reduced_fin (V := V) a m h0
            rw [hr] at e
            cases e
        have h2 : q = .pinf ∨ q = .nan := by
          rcases reduced_zero (V := V) a m with h | h <;> rw [h] at hr
          · exact Or.inr (summedX_nan hq hr)
          · exact (summedX_high hq hn).1 hr
        have h0 : ¬ (-1 / 2 : ℝ) = 0 := by norm_num
        have h0' : ¬ (0 : ℝ) < -1 / 2 := by norm_num
        rcases h1 with rfl | rfl <;> rcases h2 with rfl | rfl <;> simp [XF.scale, XF.sub, XF.neg, XF.add, h0, h0', nan_add]

/-- C140: if all variances are positive, all log probabilities of every sample are numbers. A single variance that is not positive makes
all probabilities of all classes NaN for every sample. -/
theorem C140_posteriors (V : Env) (prior : ℝ) (hp : 0 < prior) (means vars : List (List ℝ)) (x : List ℝ)
    (hl : means.length = vars.length) (h0 : vars ≠ []) (hm : ∀ m ∈ means, m.length = x.length) (hv : ∀ v ∈ vars, v.length = x.length) :
    (∃ out, PredictProb V prior means vars x out) ∧
    (∀ out, PredictLogProb V prior means vars x out → out.length = vars.length ∧
      ((∀ v ∈ vars.flatten, 0 < v) → ∀ w ∈ out, ∃ r, w = .fin r) ∧ ((∃ v ∈ vars.flatten, v ≤ 0) → ∀ w ∈ out, w = .nan)) ∧
    ∀ out, PredictProb V prior means vars x out → out.length = vars.length ∧
      ((∀ v ∈ vars.flatten, 0 < v) → ∀ w ∈ out, ∃ r, w = .fin r) ∧ ((∃ v ∈ vars.flatten, v ≤ 0) → ∀ w ∈ out, w = .nan) := by
  have hclass : ∀ e ∈ means.zip vars, e.1.length = x.length ∧ e.2.length = x.length := fun e he =>
    ⟨hm _ (List.of_mem_zip he).1, hv _ (List.of_mem_zip he).2⟩
  have key : ∀ out, PredictLogProb V prior means vars x out → out.length = vars.length ∧
      ((∀ v ∈ vars.flatten, 0 < v) → ∀ w ∈ out, ∃ r, w = .fin r) ∧ ((∃ v ∈ vars.flatten, v ≤ 0) → ∀ w ∈ out, w = .nan) := by
    rintro out ⟨-, row, l, hrow, ⟨c, s, hc, hs, rfl⟩, rfl⟩
    have hrl : row.length = vars.length := by
      rw [← hrow.length_eq, List.length_zip, hl, Nat.min_self]
    refine ⟨by rw [List.length_map, hrl], ?_, ?_⟩
    · intro hpos
      have hfin : ∀ w ∈ row, ∃ r, w = .fin r := by
        intro w hw
        obtain ⟨i, hi, rfl⟩ := List.getElem_of_mem hw
        have hi' : i < (means.zip vars).length := by rw [hrow.length_eq]; exact hi
        have h1 := hrow.get hi' hi
        have he := hclass _ (List.getElem_mem hi')
        refine ((C140_class V prior hp _ _ x he.1 he.2).2 _ h1).1 fun v hv => hpos v ?_
        exact List.mem_flatten.mpr ⟨_, (List.of_mem_zip (List.getElem_mem hi')).2, hv⟩
      obtain ⟨rs, hrs⟩ := forall_fin (f := id) hfin
      rw [List.map_id] at hrs
      obtain ⟨r, rfl, hr, hmax⟩ := hc rs hrs
      have hexp : ExpSum V rs r (XF.val s) ∧ s = .fin (XF.val s) := by
        obtain ⟨t, rfl, ht⟩ := summedX_val hs fun y hy => by
          obtain ⟨w, hw, rfl⟩ := List.mem_map.mp hy
          obtain ⟨a, rfl⟩ := hfin w hw
          exact ⟨_, rfl⟩
        refine ⟨?_, rfl⟩
        unfold ExpSum
        have e : (row.map fun a => XF.exp V (XF.sub V a (.fin r))).map XF.val = rs.map fun a => V.exp (V.rnd (a - r)) := by
          rw [hrs, List.map_map, List.map_map]
          exact List.map_congr_left fun a _ => by simp [XF.sub, XF.neg, XF.add, XF.exp, XF.val, sub_eq_add_neg]
        rw [e] at ht
        exact ht
      have hge := expSum_bounds hr hmax hexp.1
      have hlog : ∃ t, XF.add V (XF.logOf V s) (.fin r) = .fin t := by
        rw [hexp.2, XF.logOf, XF.log, if_neg (by linarith), if_neg (by linarith)]
        exact ⟨_, rfl⟩
      obtain ⟨t, ht⟩ := hlog
      rw [ht]
      intro w hw
      obtain ⟨a, ha, rfl⟩ := List.mem_map.mp hw
      obtain ⟨b, rfl⟩ := hfin a ha
      exact ⟨_, rfl⟩
    · rintro ⟨v, hvm, hle⟩
      obtain ⟨var, hvar, hvv⟩ := List.mem_flatten.mp hvm
      obtain ⟨i, hi, hvi⟩ := List.getElem_of_mem hvar
      have hi' : i < (means.zip vars).length := by rw [List.length_zip, hl, Nat.min_self]; exact hi
      have h1 := hrow.get hi' (by rw [hrl]; exact hi)
      have he := hclass _ (List.getElem_mem hi')
      have hnan := ((C140_class V prior hp _ _ x he.1 he.2).2 _ h1).2 ⟨v, by
        simp only [List.getElem_zip, List.get_eq_getElem, hvi]
        exact hvv, hle⟩
      have hmem : XF.nan ∈ row := by
        rw [← hnan]
        exact List.get_mem _ _
      have hs' : s = .nan := summedX_nan hs (List.mem_map.mpr ⟨_, hmem, by
        cases c <;> rfl⟩)
      intro w hw
      obtain ⟨a, _, rfl⟩ := List.mem_map.mp hw
      rw [hs', XF.logOf, nan_add]
      exact sub_nan a
  refine ⟨?_, key, ?_⟩
  · have hex : ∃ row, List.Forall₂ (fun (e : List ℝ × List ℝ) w => JointLogLikelihood V prior e.1 e.2 x w) (means.zip vars) row := by
      have : ∀ l : List (List ℝ × List ℝ), (∀ e ∈ l, e.1.length = x.length ∧ e.2.length = x.length) →
          ∃ row, List.Forall₂ (fun (e : List ℝ × List ℝ) w => JointLogLikelihood V prior e.1 e.2 x w) l row := by
        intro l
        induction l with
        | nil => exact fun _ => ⟨[], .nil⟩
        | cons e l ih =>
          intro h
          obtain ⟨row, hrow⟩ := ih fun e' he' => h e' (by simp [he'])
          have := h e (by simp)
          obtain ⟨w, hw⟩ := (C140_class V prior hp e.1 e.2 x this.1 this.2).1
          exact ⟨w :: row, .cons hw hrow⟩
      exact this _ hclass
    obtain ⟨row, hrow⟩ := hex
    have hlarge : ∃ c, Largest row c := by
      by_cases h : ∃ l : List ℝ, row = l.map .fin
      · obtain ⟨l, rfl⟩ := h
        have hne : l ≠ [] := fun h => by
          rw [h] at hrow
          have := hrow.length_eq
          rw [List.length_zip, hl, Nat.min_self] at this
          exact h0 (List.length_eq_zero_iff.mp (by simpa using this))
        obtain ⟨c, _, hc⟩ := Analytic.maxLine_spec l hne
        refine ⟨.fin c, fun l' hl' => ⟨c, rfl, ?_⟩⟩
        have : l = l' := List.map_injective_iff.mpr (fun a b h => by cases h; rfl) hl'
        rw [← this]
        exact ⟨hc.1, hc.2⟩
      · exact ⟨.nan, fun l hl => absurd ⟨l, hl⟩ h⟩
    obtain ⟨c, hc⟩ := hlarge
    obtain ⟨s, hs⟩ := exists_summedX V (row.map fun a => XF.exp V (XF.sub V a c))
    exact ⟨_, _, ⟨hl, row, _, hrow, ⟨c, s, hc, hs, rfl⟩, rfl⟩, rfl⟩
  · rintro out ⟨lp, hlp, rfl⟩
    obtain ⟨h1, h2, h3⟩ := key lp hlp
    refine ⟨by rw [List.length_map, h1], fun h w hw => ?_, fun h w hw => ?_⟩
    · obtain ⟨a, ha, rfl⟩ := List.mem_map.mp hw
      obtain ⟨r, rfl⟩ := h2 h a ha
      exact ⟨_, rfl⟩
    · obtain ⟨a, ha, rfl⟩ := List.mem_map.mp hw
      rw [h3 h a ha]
      rfl

namespace SaturationNB

theorem summed_const {A : Arith} {a : ℝ} {n : Nat} (hx : ∀ k : Nat, k ≤ n → A.rnd (k * a) = k * a) {l : List ℝ} {s : ℝ} (h : Summed A l s)
    (hl : ∀ b ∈ l, b = a) (hn : l.length ≤ n) : s = l.length * a := by
  induction h with
  | nil => simp
  | single x => simp [hl x (by simp)]
  | @add l r m b c _ _ _ _ hm ih1 ih2 =>
    have hlen : m.length = l.length + r.length := by rw [hm.length_eq, List.length_append]
    rw [ih1 (fun b hb => hl b (hm.mem_iff.mpr (List.mem_append_left _ hb))) (by omega),
      ih2 (fun b hb => hl b (hm.mem_iff.mpr (List.mem_append_right _ hb))) (by omega), ← add_mul, ← Nat.cast_add, ← hlen]
    exact hx _ hn

theorem mean_const {A : Arith} {a : ℝ} {l : List ℝ} (h0 : l ≠ []) (hl : ∀ b ∈ l, b = a) (hx : ∀ k : Nat, k ≤ l.length → A.rnd (k * a) = k * a)
    {m : ℝ} (h : Mean A l m) : m = a := by
  obtain ⟨s, hs, rfl⟩ := h
  have hn : (l.length : ℝ) ≠ 0 := by simpa using h0
  have h1 := hx 1 (List.length_pos_of_ne_nil h0)
  rw [Nat.cast_one, one_mul] at h1
  rw [summed_const hx hs hl le_rfl, mul_div_cancel_left₀ _ hn, h1]

theorem var_const {A : Arith} {a : ℝ} {l : List ℝ} (h0 : l ≠ []) (hl : ∀ b ∈ l, b = a) (hx : ∀ k : Nat, k ≤ l.length → A.rnd (k * a) = k * a)
    (hy : ∀ k : Nat, k ≤ l.length → A.rnd (k * (a * a)) = k * (a * a)) {v : ℝ} (h : Var A l v) : v = 0 := by
  obtain ⟨sq, m, q, mm, hsq, hm, hq, hmm, rfl⟩ := h
  have h1 := hy 1 (List.length_pos_of_ne_nil h0)
  rw [Nat.cast_one, one_mul] at h1
  have hT : ∀ t, Term A a a t → t = a * a := fun t ht => by
    rcases ht with rfl | rfl
    · exact h1
    · rfl
  have hsl : sq.length = l.length := hsq.length_eq.symm
  have hsqa : ∀ b ∈ sq, b = a * a := by
    intro b hb
    obtain ⟨i, hi, rfl⟩ := List.getElem_of_mem hb
    have := hsq.get (by rw [hsq.length_eq]; exact hi) hi
    rw [List.get_eq_getElem, hl _ (List.getElem_mem _)] at this
    exact hT _ this
  have hm' := mean_const h0 hl hx hm
  have hq' := mean_const (fun h => h0 (List.length_eq_zero_iff.mp (by rw [← hsl, h]; rfl))) hsqa (by rw [hsl]; exact hy) hq
  rw [hm'] at hmm
  rw [hq', hT _ hmm, sub_self]
  have := A.err 0
  simpa using this

theorem forall₂_flatten {R : List ℝ → ℝ → Prop} {groups : List (List (List ℝ))} {raw : List (List ℝ)}
    (h : List.Forall₂ (List.Forall₂ R) groups raw) : List.Forall₂ R groups.flatten raw.flatten := by
  induction h with
  | nil => exact .nil
  | cons h _ ih => exact List.rel_append h ih

theorem forall₂_mem_right {β γ : Type} {R : β → γ → Prop} {l : List β} {r : List γ} (h : List.Forall₂ R l r) {b : γ} (hb : b ∈ r) :
    ∃ a ∈ l, R a b := by
  induction h with
  | nil => simp at hb
  | cons h _ ih =>
    rcases List.mem_cons.mp hb with rfl | hb
    · exact ⟨_, by simp, h⟩
    · obtain ⟨a, ha, hr⟩ := ih hb
      exact ⟨a, by simp [ha], hr⟩

theorem forall₂_mem_left {β γ : Type} {R : β → γ → Prop} {l : List β} {r : List γ} (h : List.Forall₂ R l r) {a : β} (ha : a ∈ l) :
    ∃ b ∈ r, R a b := by
  induction h with
  | nil => simp at ha
  | cons h _ ih =>
    rcases List.mem_cons.mp ha with rfl | ha
    · exact ⟨_, by simp, h⟩
    · obtain ⟨b, hb, hr⟩ := ih ha
      exact ⟨b, by simp [hb], hr⟩

theorem flatten_map {f : ℝ → ℝ} {raw : List (List ℝ)} {v : ℝ} (h : v ∈ (raw.map fun r => r.map f).flatten) : ∃ w ∈ raw.flatten, v = f w := by
  obtain ⟨r, hr, hv⟩ := List.mem_flatten.mp h
  obtain ⟨r', hr', rfl⟩ := List.mem_map.mp hr
  obtain ⟨w, hw, rfl⟩ := List.mem_map.mp hv
  exact ⟨w, List.mem_flatten.mpr ⟨r', hr', hw⟩, rfl⟩

theorem fit_shape {V : Env} {s : ℝ} {groups : List (List (List ℝ))} {means vars : List (List ℝ)} (h : GaussianFit V s groups means vars)
    {n : Nat} (hg : ∀ g ∈ groups, g.length = n) :
    means.length = vars.length ∧ vars.length = groups.length ∧ (∀ m ∈ means, m.length = n) ∧ ∀ v ∈ vars, v.length = n := by
  obtain ⟨hm, raw, top, add, hv, -, -, -, rfl⟩ := h
  refine ⟨by rw [List.length_map, ← hm.length_eq, hv.length_eq], by rw [List.length_map, hv.length_eq], ?_, ?_⟩
  · intro m h
    obtain ⟨g, hg', hr⟩ := forall₂_mem_right hm h
    rw [← hr.length_eq, hg g hg']
  · intro v h
    obtain ⟨r, hr, rfl⟩ := List.mem_map.mp h
    obtain ⟨g, hg', hr'⟩ := forall₂_mem_right hv hr
    rw [List.length_map, ← hr'.length_eq, hg g hg']

end SaturationNB

/-- C140: positive smoothing makes all variances positive if no computed variance is negative and one of them is positive. -/
theorem C140_smoothed (V : Env) (s : ℝ) (hs : 0 < s) (groups : List (List (List ℝ))) (means vars : List (List ℝ))
    (h : GaussianFit V s groups means vars) (hnn : ∀ col ∈ groups.flatten, ∀ v, Var V.toArith col v → 0 ≤ v)
    (hpos : ∃ col ∈ groups.flatten, ∀ v, Var V.toArith col v → 0 < v) : ∀ v ∈ vars.flatten, 0 < v := by
  obtain ⟨-, raw, top, add, hv, -, htop, hadd, rfl⟩ := h
  have hF := forall₂_flatten hv
  obtain ⟨col, hcol, hp⟩ := hpos
  obtain ⟨w, hw, hwv⟩ := forall₂_mem_left hF hcol
  have ht : 0 < top := lt_of_lt_of_le (hp w hwv) (htop w hw)
  have ha : 0 < add := by
    rcases hadd with rfl | rfl
    · exact V.rnd_pos (mul_pos hs ht)
    · exact mul_pos hs ht
  intro v hv'
  obtain ⟨w, hw, rfl⟩ := flatten_map hv'
  obtain ⟨col, hcol, hr⟩ := forall₂_mem_right hF hw
  exact V.rnd_pos (by linarith [hnn col hcol w hr])

/-- C140: if within each class all samples are equal, and the multiples of their values and squares are representable (as for moderate
integers), the smoothing has no effect: all variances are zero, and all probabilities of every sample are NaN. This includes training
with one sample for each class. -/
theorem C140_constant (V : Env) (s prior : ℝ) (hp : 0 < prior) (groups : List (List (List ℝ))) (means vars : List (List ℝ))
    (h : GaussianFit V s groups means vars) (x : List ℝ) (hx : ∀ g ∈ groups, g.length = x.length)
    (hc : ∀ col ∈ groups.flatten, col ≠ [] ∧ ∃ a, (∀ b ∈ col, b = a) ∧
      ∀ k : Nat, k ≤ col.length → V.rnd (k * a) = k * a ∧ V.rnd (k * (a * a)) = k * (a * a)) :
    (∀ v ∈ vars.flatten, v = 0) ∧ (∃ out, PredictProb V prior means vars x out) ∧
    ∀ out, PredictProb V prior means vars x out → out.length = groups.length ∧ ∀ w ∈ out, w = .nan := by
  obtain ⟨h1, h2, h3, h4⟩ := fit_shape h hx
  obtain ⟨-, raw, top, add, hv, htm, -, hadd, rfl⟩ := h
  have hF := forall₂_flatten hv
  have hz : ∀ w ∈ raw.flatten, w = 0 := by
    intro w hw
    obtain ⟨col, hcol, hr⟩ := forall₂_mem_right hF hw
    obtain ⟨hne, a, ha, hk⟩ := hc col hcol
    exact var_const hne ha (fun k hk' => (hk k hk').1) (fun k hk' => (hk k hk').2) hr
  have hadd0 : add = 0 := by
    rw [hz top htm] at hadd
    rcases hadd with rfl | rfl <;> simp [V.rnd_zero]
  have hall : ∀ v ∈ (raw.map fun r => r.map fun v => V.rnd (v + add)).flatten, v = 0 := by
    intro v hv'
    obtain ⟨w, hw, rfl⟩ := flatten_map hv'
    rw [hz w hw, hadd0, add_zero, V.rnd_zero]
  have hne : (raw.map fun r => r.map fun v => V.rnd (v + add)) ≠ [] := fun h => by
    rw [List.map_eq_nil_iff] at h
    rw [h] at htm
    simp at htm
  obtain ⟨p1, -, p2⟩ := C140_posteriors V prior hp means _ x h1 hne h3 h4
  refine ⟨hall, p1, fun out hout => ⟨(p2 out hout).1.trans h2, (p2 out hout).2.2 ⟨V.rnd (top + add), ?_, ?_⟩⟩⟩
  · obtain ⟨r, hr, ht⟩ := List.mem_flatten.mp htm
    exact List.mem_flatten.mpr ⟨_, List.mem_map.mpr ⟨r, hr, rfl⟩, List.mem_map.mpr ⟨top, ht, rfl⟩⟩
  · rw [hz top htm, hadd0, add_zero, V.rnd_zero]

namespace SaturationNB

theorem mean_exact {l : List ℝ} {m : ℝ} : Mean Rounding.exact l m ↔ m = Spec.average l := by
  constructor
  · rintro ⟨s, hs, rfl⟩
    rw [summed_exact.mp hs]
    rfl
  · rintro rfl
    exact ⟨_, summed_exact.mpr rfl, rfl⟩

theorem var_exact {l : List ℝ} (hl : l ≠ []) {v : ℝ} : Var Rounding.exact l v ↔ v = Spec.meanSquaredDeviation l := by
  rw [(C131_exact.2.2.2.1 l v hl), Stats.varLine_eq hl, Option.some.injEq, eq_comm]

theorem forall₂_eq_map {β γ : Type} {f : β → γ} {l : List β} {r : List γ} : List.Forall₂ (fun a b => b = f a) l r ↔ r = l.map f := by
  induction l generalizing r with
  | nil => simp
  | cons a l ih =>
    cases r with
    | nil => simp
    | cons b r => simp [ih]

theorem forall₂_congr_mem {β γ : Type} {R S : β → γ → Prop} {l : List β} {r : List γ} (h : ∀ a ∈ l, ∀ b, R a b ↔ S a b) :
    List.Forall₂ R l r ↔ List.Forall₂ S l r := by
  induction l generalizing r with
  | nil => simp
  | cons a l ih =>
    cases r with
    | nil => simp
    | cons b r => simp [ih fun c hc => h c (by simp [hc]), h a (by simp)]

theorem sumX_exact {l : List ℝ} {s : XF} : SummedX exactEnv (l.map XF.fin) s ↔ s = .fin l.sum := by
  constructor
  · intro h
    obtain ⟨r, rfl, hr⟩ := summedX_val h fun x hx => by
      obtain ⟨a, _, rfl⟩ := List.mem_map.mp hx
      exact ⟨a, rfl⟩
    rw [List.map_map, show XF.val ∘ XF.fin = id from rfl, List.map_id] at hr
    rw [summed_exact.mp hr]
  · rintro rfl
    exact summedX_of_summed (V := exactEnv) (summed_exact.mpr rfl)

theorem reducedRow_exact {x mean var : List ℝ} (h1 : mean.length = x.length) (h2 : var.length = x.length) (hv : ∀ v ∈ var, 0 < v) :
    reducedRow exactEnv x mean var =
      (List.zipWith (fun c v => c / v) (List.zipWith (fun a m => (a - m) ^ 2) x mean) var).map XF.fin := by
  induction x generalizing mean var with
  | nil => simp [reducedRow]
  | cons a x ih =>
    match mean, var, h1, h2, hv with
    | m :: mean, v :: var, h1, h2, hv =>
      rw [reducedRow, ih (by simpa using h1) (by simpa using h2) fun w hw => hv w (by simp [hw]), List.zipWith_cons_cons,
        List.zipWith_cons_cons, List.map_cons]
      congr 1
      have h0 := (hv v (by simp)).ne'
      simp [reduced, XF.quot, h0, exactEnv, Rounding.exact, pow_two]

theorem logVariance_exact {v : ℝ} (hv : 0 < v) : logVariance exactEnv v = .fin (Real.log (v * 2 * Real.pi)) := by
  have h : 0 < v * 2 * Real.pi := mul_pos (mul_pos hv two_pos) Real.pi_pos
  have e : exactEnv.rnd (exactEnv.rnd (v * 2) * exactEnv.rnd Real.pi) = v * 2 * Real.pi := rfl
  rw [logVariance, e, XF.log, if_neg h.ne', if_neg (not_lt.mpr h.le)]
  rfl

end SaturationNB

open NB Spec in
/-- C140: in exact arithmetic the fit is that of the model over the real numbers, and so are the scores of a class with positive
variances. -/
theorem C140_exact (s : ℝ) (X : DMat ℝ) (hX : X.WF) (y : List ℝ) (hy : y.length = X.nrows) (hd : 2 ≤ X.ncols) :
    (∀ means vars, GaussianFit exactEnv s ((classesOf (countLabels [] y)).map fun b =>
        (List.range X.ncols).map fun f => featureOf (classRows X.rows y b) f) means vars ↔
      ∃ m, fitGaussian s [] X y = .ok (m, ⟨means, vars⟩)) ∧
    ∀ (prior : ℝ) (mean var x : List ℝ), 0 < prior → (∀ v ∈ var, 0 < v) → ∀ w,
      JointLogLikelihood exactEnv prior mean var x w ↔ ∃ l, gaussianLL mean var x = .ok l ∧ w = .fin (l + Real.log prior) := by
  constructor
  · intro means vars
    have h := holds_countLabels ([] : List (ℝ × Nat)) [] y holds_nil
    have hk : ∀ b, b ∈ classesOf (countLabels [] y) ↔ b ∈ y := fun b => by rw [h.keys]; simp
    have hu := updateMeanVariance_spec X hX y hy hd (classesOf (countLabels [] y)) fun b hb => (hk b).mp hb
    obtain ⟨labels, hlab⟩ : ∃ l, l = classesOf (countLabels [] y) := ⟨_, rfl⟩
    rw [← hlab] at hu hk ⊢
    have hf : ∀ b ∈ labels, ∀ f, featureOf (classRows X.rows y b) f ≠ [] := by
      intro b hb f
      simpa [featureOf] using classRows_ne_nil X.rows y hy b ((hk b).mp hb)
    have hmeans : List.Forall₂ (List.Forall₂ (Mean exactEnv.toArith)) (labels.map fun b =>
        (List.range X.ncols).map fun f => featureOf (classRows X.rows y b) f) means ↔
        means = labels.map fun b => (List.range X.ncols).map fun f => average (featureOf (classRows X.rows y b) f) := by
      rw [forall₂_congr_mem (S := fun g m => m = g.map average), forall₂_eq_map, List.map_map]
      · simp only [Function.comp_def, List.map_map]
      · intro g _ m
        rw [← forall₂_eq_map]
        exact forall₂_congr_mem fun l _ v => mean_exact
    have hvars : ∀ raw, List.Forall₂ (List.Forall₂ (Var exactEnv.toArith)) (labels.map fun b =>
        (List.range X.ncols).map fun f => featureOf (classRows X.rows y b) f) raw ↔
        raw = labels.map fun b => (List.range X.ncols).map fun f => meanSquaredDeviation (featureOf (classRows X.rows y b) f) := by
      intro raw
      rw [forall₂_congr_mem (S := fun g m => m = g.map meanSquaredDeviation), forall₂_eq_map, List.map_map]
      · simp only [Function.comp_def, List.map_map]
      · intro g hg m
        rw [← forall₂_eq_map]
        refine forall₂_congr_mem fun l hl v => var_exact ?_
        obtain ⟨b, hb, rfl⟩ := List.mem_map.mp hg
        obtain ⟨f, _, rfl⟩ := List.mem_map.mp hl
        exact hf b hb f
    obtain ⟨raw, hraw⟩ : ∃ r, r = labels.map fun b => (List.range X.ncols).map fun f =>
      meanSquaredDeviation (featureOf (classRows X.rows y b) f) := ⟨_, rfl⟩
    unfold GaussianFit
    rw [hmeans]
    have e : fitGaussian s [] X y = (do
        let top ← maxEntry raw
        .ok (countLabels [] y, ⟨labels.map fun b => (List.range X.ncols).map fun f => average (featureOf (classRows X.rows y b) f),
          raw.map fun r => r.map fun v => v + s * top⟩)) := by
      simp only [fitGaussian, ← hlab, hu, Res.bind_ok, ← hraw]
    rw [e]
    have hterm : ∀ top add : ℝ, Term exactEnv.toArith s top add ↔ add = s * top := fun top add => or_self_iff
    constructor
    · rintro ⟨rfl, raw', top, add, hr, htm, hle, hadd, rfl⟩
      rw [hvars, ← hraw] at hr
      subst hr
      obtain ⟨t, ht, htm', hle'⟩ := maxEntry_spec raw' (List.ne_nil_of_mem htm)
      obtain rfl : t = top := le_antisymm (hle t htm') (hle' top htm)
      rw [hterm] at hadd
      subst hadd
      exact ⟨_, by rw [ht, Res.bind_ok]; rfl⟩
    · rintro ⟨m, hm⟩
      obtain ⟨t, ht, hm⟩ := Res.bind_eq_ok.mp hm
      simp only [Res.ok.injEq, Prod.mk.injEq, Gaussian.mk.injEq] at hm
      obtain ⟨-, rfl, rfl⟩ := hm
      have hne : raw.flatten ≠ [] := fun h0 => by
        rw [maxEntry, h0] at ht
        cases ht
      obtain ⟨t', ht', htm', hle'⟩ := maxEntry_spec raw hne
      obtain rfl : t' = t := Res.ok.inj (ht'.symm.trans ht)
      exact ⟨rfl, raw, t', s * t', (hvars raw).mpr hraw, htm', hle', (hterm _ _).mpr rfl, rfl⟩
  · intro prior mean var x hp hv w
    unfold JointLogLikelihood gaussianLL
    have hlp : XF.log exactEnv prior = .fin (Real.log prior) := by
      rw [XF.log, if_neg hp.ne', if_neg (not_lt.mpr hp.le)]
      rfl
    have hls : var.map (logVariance exactEnv) = (var.map fun v => Real.log (v * 2 * Real.pi)).map XF.fin := by
      rw [List.map_map]
      exact List.map_congr_left fun v hvm => logVariance_exact (hv v hvm)
    constructor
    · rintro ⟨h1, h2, s, q, hs, hq, rfl⟩
      rw [hls, sumX_exact] at hs
      rw [reducedRow_exact h1 h2 hv, sumX_exact] at hq
      subst hs hq
      refine ⟨_, if_pos ⟨h1.symm, h2.symm⟩, ?_⟩
      rw [hlp]
      simp only [XF.scale, XF.sub, XF.neg, XF.add, exactEnv, Rounding.exact, sumLogVar, id]
      congr 1
      ring
    · rintro ⟨l, hl, rfl⟩
      split at hl
      · rename_i hlen
        obtain rfl := Res.ok.inj hl
        refine ⟨hlen.1.symm, hlen.2.symm, _, _, by rw [hls]; exact sumX_exact.mpr rfl,
          by rw [reducedRow_exact hlen.1.symm hlen.2.symm hv]; exact sumX_exact.mpr rfl, ?_⟩
        rw [hlp]
        simp only [XF.scale, XF.sub, XF.neg, XF.add, exactEnv, Rounding.exact, sumLogVar, id]
        congr 1
        ring
      · cases hl

/-- C140: in exact arithmetic with positive smoothing, all probabilities are numbers if some feature takes two values within some class,
and NaN otherwise. -/
theorem C140_dichotomy (s prior : ℝ) (hs : 0 < s) (hp : 0 < prior) (groups : List (List (List ℝ))) (means vars : List (List ℝ))
    (h : GaussianFit exactEnv s groups means vars) (hne : ∀ col ∈ groups.flatten, col ≠ []) (x : List ℝ)
    (hx : ∀ g ∈ groups, g.length = x.length) (out : List XF) (hout : PredictProb exactEnv prior means vars x out) :
    ((∃ col ∈ groups.flatten, ∃ a ∈ col, ∃ b ∈ col, a ≠ b) → ∀ w ∈ out, ∃ r, w = .fin r) ∧
    ((∀ col ∈ groups.flatten, ∀ a ∈ col, ∀ b ∈ col, a = b) → ∀ w ∈ out, w = .nan) := by
  obtain ⟨h1, h2, h3, h4⟩ := fit_shape h hx
  constructor
  · rintro ⟨col, hcol, a, ha, b, hb, hab⟩
    have hpos := C140_smoothed exactEnv s hs groups means vars h (fun col hcol v hv => by
      rw [(var_exact (hne col hcol)).mp hv]
      exact Stats.meanSquaredDeviation_nonneg col) ⟨col, hcol, fun v hv => by
        rw [(var_exact (hne col hcol)).mp hv]
        refine lt_of_le_of_ne (Stats.meanSquaredDeviation_nonneg col) fun h0 => hab ?_
        unfold Spec.meanSquaredDeviation at h0
        have hlen : (0 : ℝ) < ((col.map fun a => (a - Spec.average col) ^ 2).length : ℝ) := by
          rw [List.length_map]
          exact_mod_cast List.length_pos_of_mem ha
        have hsum : (col.map fun a => (a - Spec.average col) ^ 2).sum = 0 := by
          have := h0.symm
          unfold Spec.average at this ⊢
          rw [div_eq_zero_iff] at this
          exact this.resolve_right hlen.ne'
        have hz : ∀ c ∈ col, c = Spec.average col := by
          intro c hc
          have := List.single_le_sum (l := col.map fun a => (a - Spec.average col) ^ 2) (fun t ht => by
            obtain ⟨u, _, rfl⟩ := List.mem_map.mp ht
            exact sq_nonneg _) _ (List.mem_map.mpr ⟨c, hc, rfl⟩)
          rw [hsum] at this
          exact sub_eq_zero.mp (pow_eq_zero_iff two_ne_zero |>.mp (le_antisymm this (sq_nonneg _)))
        rw [hz a ha, hz b hb]⟩
    have hv0 : vars ≠ [] := fun h0 => by
      rw [h0, List.length_nil] at h2
      rw [List.length_eq_zero_iff.mp h2.symm] at hcol
      simp at hcol
    exact ((C140_posteriors exactEnv prior hp means vars x h1 hv0 h3 h4).2.2 out hout).2.1 hpos
  · intro hc
    exact ((C140_constant exactEnv s prior hp groups means vars h x hx fun col hcol => ⟨hne col hcol,
      col.head (hne col hcol), fun b hb => hc col hcol b hb _ (List.head_mem _), fun k _ => ⟨rfl, rfl⟩⟩).2.2 out hout).2

/-- C140: without the assumption on representable values, variances can be negative and smoothing makes them smaller still. In double
precision, for samples in two classes with the value 0.1 in two features, three in each class, all variances after `fit` are negative for
one order of the additions, and then all probabilities are NaN for every sample. -/
theorem C140_negative (s : ℝ) (hs : 0 ≤ s) : ∃ means vars,
    GaussianFit (binaryEnv 53 (by norm_num)) s (List.replicate 2 (List.replicate 2 (List.replicate 3 (3602879701896397 / 2 ^ 55)))) means vars ∧
    (∀ v ∈ vars.flatten, v < 0) ∧ ∀ (prior : ℝ), 0 < prior → ∀ x : List ℝ, x.length = 2 →
      (∃ out, PredictProb (binaryEnv 53 (by norm_num)) prior means vars x out) ∧
      ∀ out, PredictProb (binaryEnv 53 (by norm_num)) prior means vars x out → out.length = 2 ∧ ∀ w ∈ out, w = .nan := by
  set V := binaryEnv 53 (by norm_num) with hV
  obtain ⟨t, ht⟩ := exists_summed V (List.replicate 3 (3602879701896397 / 2 ^ 55 : ℝ))
  have hm : Mean V.toArith (List.replicate 3 (3602879701896397 / 2 ^ 55 : ℝ)) (V.rnd (t / 3)) := ⟨t, ht, by simp⟩
  have hvar : Var V.toArith (List.replicate 3 (3602879701896397 / 2 ^ 55 : ℝ)) (-(1 / 2 ^ 59)) := C131_negative_variance
  have hneg : V.rnd (-(1 / 2 ^ 59) + V.rnd (s * -(1 / 2 ^ 59))) < 0 := by
    have h1 : V.rnd (s * -(1 / 2 ^ 59)) ≤ 0 := by
      rw [← V.rnd_zero]
      refine V.mono ?_
      have : 0 ≤ s * (1 / 2 ^ 59) := by positivity
      linarith
    have h2 : (-(1 / 2 ^ 59) + V.rnd (s * -(1 / 2 ^ 59)) : ℝ) < 0 := by
      have : (0 : ℝ) < 1 / 2 ^ 59 := by positivity
      linarith
    refine lt_of_le_of_ne ?_ fun h => h2.ne (rnd_eq_zero.mp h)
    rw [← V.rnd_zero]
    exact V.mono h2.le
  refine ⟨List.replicate 2 (List.replicate 2 (V.rnd (t / 3))),
    List.replicate 2 (List.replicate 2 (V.rnd (-(1 / 2 ^ 59) + V.rnd (s * -(1 / 2 ^ 59))))), ⟨?_,
    List.replicate 2 (List.replicate 2 (-(1 / 2 ^ 59))), -(1 / 2 ^ 59), V.rnd (s * -(1 / 2 ^ 59)), ?_, by simp [List.replicate], ?_, Or.inl rfl, by simp⟩,
    ?_, ?_⟩
  · exact .cons (.cons hm (.cons hm .nil)) (.cons (.cons hm (.cons hm .nil)) .nil)
  · exact .cons (.cons hvar (.cons hvar .nil)) (.cons (.cons hvar (.cons hvar .nil)) .nil)
  · intro v hv
    simp [List.replicate] at hv
    rw [hv]
    norm_num
  · intro v hv
    simp [List.replicate] at hv
    rw [hv]
    simpa using hneg
  · intro prior hp x hx
    have h := C140_posteriors V prior hp (List.replicate 2 (List.replicate 2 (V.rnd (t / 3))))
      (List.replicate 2 (List.replicate 2 (V.rnd (-(1 / 2 ^ 59) + V.rnd (s * -(1 / 2 ^ 59)))))) x (by simp) (by simp)
      (fun m hm => by rw [List.eq_of_mem_replicate hm]; simp [hx]) (fun m hm => by rw [List.eq_of_mem_replicate hm]; simp [hx])
    exact ⟨h.1, fun out ho => ⟨(h.2.2 out ho).1, (h.2.2 out ho).2.2 ⟨_, by simp [List.replicate], hneg.le⟩⟩⟩

/-- Beside C140_class: a class with variances 1 and 4, and one with variances 1 and 0. -/
example : (∃ r, JointLogLikelihood (binaryEnv 53 (by norm_num)) (1 / 2) [0, 3] [1, 4] [1, 5] (.fin r)) ∧
    JointLogLikelihood (binaryEnv 53 (by norm_num)) (1 / 2) [0, 3] [1, 0] [1, 3] .nan := by
  constructor
  · obtain ⟨⟨w, hw⟩, h⟩ := C140_class (binaryEnv 53 (by norm_num)) (1 / 2) (by norm_num) [0, 3] [1, 4] [1, 5] rfl rfl
    obtain ⟨r, rfl⟩ := (h w hw).1 (by simp)
    exact ⟨r, hw⟩
  · obtain ⟨⟨w, hw⟩, h⟩ := C140_class (binaryEnv 53 (by norm_num)) (1 / 2) (by norm_num) [0, 3] [1, 0] [1, 3] rfl rfl
    obtain rfl := (h w hw).2 ⟨0, by simp, le_rfl⟩
    exact hw

/-- Beside C140_posteriors: a zero variance in the second class spoils the probabilities of the first one. -/
example : (∃ a b, PredictProb (binaryEnv 53 (by norm_num)) (1 / 2) [[0, 3], [2, 2]] [[1, 4], [1, 1]] [1, 5] [.fin a, .fin b]) ∧
    PredictProb (binaryEnv 53 (by norm_num)) (1 / 2) [[0, 3], [2, 2]] [[1, 4], [1, 0]] [1, 5] [.nan, .nan] := by
  constructor
  · obtain ⟨⟨out, ho⟩, -, h⟩ := C140_posteriors (binaryEnv 53 (by norm_num)) (1 / 2) (by norm_num) [[0, 3], [2, 2]] [[1, 4], [1, 1]] [1, 5] rfl (by simp)
      (by simp) (by simp)
    obtain ⟨hl, hf, -⟩ := h out ho
    match out, hl, hf, ho with
    | [u, v], _, hf, ho =>
      obtain ⟨a, rfl⟩ := hf (by simp) u (by simp)
      obtain ⟨b, rfl⟩ := hf (by simp) v (by simp)
      exact ⟨a, b, ho⟩
  · obtain ⟨⟨out, ho⟩, -, h⟩ := C140_posteriors (binaryEnv 53 (by norm_num)) (1 / 2) (by norm_num) [[0, 3], [2, 2]] [[1, 4], [1, 0]] [1, 5] rfl (by simp)
      (by simp) (by simp)
    obtain ⟨hl, -, hf⟩ := h out ho
    match out, hl, hf, ho with
    | [u, v], _, hf, ho =>
      obtain rfl := hf ⟨0, by simp, le_rfl⟩ u (by simp)
      obtain rfl := hf ⟨0, by simp, le_rfl⟩ v (by simp)
      exact ho

namespace SaturationNB

/-- Every training set with a feature and a class has a fit. -/
theorem exists_fit (V : Env) (s : ℝ) (groups : List (List (List ℝ))) (h : groups.flatten ≠ []) : ∃ means vars, GaussianFit V s groups means vars := by
  have lift : ∀ (R : List ℝ → ℝ → Prop), (∀ l, ∃ v, R l v) → ∀ g : List (List (List ℝ)), ∃ r, List.Forall₂ (List.Forall₂ R) g r := by
    intro R hR
    have one : ∀ g : List (List ℝ), ∃ r, List.Forall₂ R g r := by
      intro g
      induction g with
      | nil => exact ⟨[], .nil⟩
      | cons a g ih =>
        obtain ⟨r, hr⟩ := ih
        obtain ⟨v, hv⟩ := hR a
        exact ⟨v :: r, .cons hv hr⟩
    intro g
    induction g with
    | nil => exact ⟨[], .nil⟩
    | cons a g ih =>
      obtain ⟨r, hr⟩ := ih
      obtain ⟨v, hv⟩ := one a
      exact ⟨v :: r, .cons hv hr⟩
  have mean : ∀ l, ∃ m, Mean V.toArith l m := fun l => by
    obtain ⟨t, ht⟩ := exists_summed V l
    exact ⟨_, t, ht, rfl⟩
  obtain ⟨means, hm⟩ := lift _ mean groups
  obtain ⟨raw, hr⟩ := lift (Var V.toArith) (fun l => by
    obtain ⟨m, hm⟩ := mean l
    obtain ⟨q, hq⟩ := mean (l.map fun a => a * a)
    refine ⟨_, _, m, q, _, ?_, hm, hq, Or.inr rfl, rfl⟩
    rw [List.forall₂_map_right_iff]
    exact List.forall₂_same.mpr fun a _ => Or.inr rfl) groups
  have hne : raw.flatten ≠ [] := fun h0 => h (by
    have := (forall₂_flatten hr).length_eq
    rw [h0, List.length_nil] at this
    exact List.length_eq_zero_iff.mp this)
  obtain ⟨t, -, ht, hle⟩ := NB.maxEntry_spec raw hne
  exact ⟨means, _, hm, raw, t, s * t, hr, ht, hle, Or.inr rfl, rfl⟩

end SaturationNB

/-- Beside C140_smoothed, C140_exact and C140_dichotomy: one sample differs from the others of its class in one feature. -/
example : ∃ means vars, GaussianFit exactEnv (1 / 10 ^ 9) [[[1, 1], [2, 2]], [[3, 5], [4, 4]]] means vars ∧ (∀ v ∈ vars.flatten, 0 < v) ∧
    ∃ out, PredictProb exactEnv (1 / 2) means vars [1, 2] out ∧ ∀ w ∈ out, ∃ r, w = .fin r := by
  obtain ⟨means, vars, h⟩ := exists_fit exactEnv (1 / 10 ^ 9) [[[1, 1], [2, 2]], [[3, 5], [4, 4]]] (by simp)
  obtain ⟨h1, h2, h3, h4⟩ := fit_shape (n := 2) h (by simp)
  obtain ⟨out, ho⟩ := (C140_posteriors exactEnv (1 / 2) (by norm_num) means vars [1, 2] h1 (fun h0 => by simp [h0] at h2) h3 h4).1
  refine ⟨means, vars, h, C140_smoothed _ _ (by norm_num) _ _ _ h (fun col hcol v hv => ?_) ⟨[3, 5], by simp, fun v hv => ?_⟩, out, ho,
    (C140_dichotomy _ (1 / 2) (by norm_num) (by norm_num) _ _ _ h (by simp) [1, 2] (by simp) out ho).1 ⟨[3, 5], by simp, 3, by simp, 5, by simp, by norm_num⟩⟩
  · rw [(var_exact (by rintro rfl; simp at hcol)).mp hv]
    exact Stats.meanSquaredDeviation_nonneg col
  · rw [(var_exact (by simp)).mp hv]
    norm_num [Spec.meanSquaredDeviation, Spec.average]

/-- Beside C140_constant and the second part of C140_dichotomy: training with one sample for each class. -/
example : ∃ means vars, GaussianFit exactEnv (1 / 10 ^ 9) [[[1], [2]], [[3], [4]]] means vars ∧
    PredictProb exactEnv (1 / 2) means vars [1, 2] [.nan, .nan] := by
  obtain ⟨means, vars, h⟩ := exists_fit exactEnv (1 / 10 ^ 9) [[[1], [2]], [[3], [4]]] (by simp)
  obtain ⟨-, ⟨out, ho⟩, hall⟩ := C140_constant exactEnv _ (1 / 2) (by norm_num) _ _ _ h [1, 2] (by simp) (fun col hcol => by
    simp only [List.flatten_cons, List.flatten_nil, List.append_nil, List.cons_append, List.nil_append, List.mem_cons, List.not_mem_nil, or_false] at hcol
    rcases hcol with rfl | rfl | rfl | rfl <;> exact ⟨by simp, _, fun b hb => List.mem_singleton.mp hb, fun k _ => ⟨rfl, rfl⟩⟩)
  obtain ⟨hl, hn⟩ := hall out ho
  refine ⟨means, vars, h, ?_⟩
  match out, hl, hn, ho with
  | [u, v], _, hn, ho =>
    obtain rfl := hn u (by simp)
    obtain rfl := hn v (by simp)
    exact ho

end OpenML
