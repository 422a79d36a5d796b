import Verif.Props.KDAgreement
import Verif.Lemmas.Metric

/-!
# C157: nearest neighbour distances are stable

The sorted distances of a k-d tree query change by no more than the points do, never grow when rows are added, and are ordered between
the metrics. The hypotheses on the trees (leaves of at least three rows, first feature widest) are those under which queries are exact
(C16, C18, C129).
-/

namespace OpenML

open Spec KDTree

namespace KDStability

variable {α : Type} [CommRing α] [LinearOrder α] [IsStrictOrderedRing α]

/-- Comparison of order statistics by counting. -/
theorem sorted_le {l l' : List α} (hl : l.Pairwise (· ≤ ·)) (hl' : l'.Pairwise (· ≤ ·)) (f : α → α)
    (h : ∀ t, l.countP (fun a => decide (a ≤ t)) ≤ l'.countP (fun a => decide (a ≤ f t))) (j : Nat) (a b : α)
    (ha : l[j]? = some a) (hb : l'[j]? = some b) : b ≤ f a := by
  by_contra hn
  push Not at hn
  obtain ⟨hj, rfl⟩ := List.getElem?_eq_some_iff.mp ha
  obtain ⟨hj', rfl⟩ := List.getElem?_eq_some_iff.mp hb
  have h1 : j + 1 ≤ l.countP (fun a => decide (a ≤ l[j])) := by
    have : (l.take (j + 1)).countP (fun a => decide (a ≤ l[j])) = j + 1 := by
      rw [List.countP_eq_length.mpr]
      · rw [List.length_take]; omega
      · intro c hc
        obtain ⟨i, hi, rfl⟩ := List.mem_iff_getElem.mp hc
        rw [List.length_take] at hi
        rw [List.getElem_take, decide_eq_true_eq]
        rcases Nat.lt_or_ge i j with h | h
        · exact List.pairwise_iff_getElem.mp hl i j (by omega) hj h
        · have : i = j := by omega
          subst this
          exact le_rfl
    rw [← this]
    exact (List.take_sublist _ _).countP_le
  have h2 : l'.countP (fun a => decide (a ≤ f l[j])) ≤ j := by
    have hz : (l'.drop j).countP (fun a => decide (a ≤ f l[j])) = 0 := by
      rw [List.countP_eq_zero]
      intro c hc
      obtain ⟨i, hi, rfl⟩ := List.mem_iff_getElem.mp hc
      rw [List.length_drop] at hi
      rw [List.getElem_drop, decide_eq_true_eq, not_le]
      rcases Nat.eq_zero_or_pos i with h | h
      · subst h
        exact hn
      · exact lt_of_lt_of_le hn (List.pairwise_iff_getElem.mp hl' j (j + i) hj' (by omega) (by omega))
    conv_lhs => rw [← List.take_append_drop j l']
    rw [List.countP_append, hz, Nat.add_zero]
    exact List.countP_le_length.trans (by rw [List.length_take]; omega)
  have := h l[j]
  omega

theorem countP_sort (l : List α) (p : α → Bool) : (l.insertionSort (· ≤ ·)).countP p = l.countP p :=
  (List.perm_insertionSort _ _).countP_eq p

/-- Lists that are related place by place. -/
theorem count_shift {l l' : List α} {f : α → α} (hf : Monotone f) (h : List.Forall₂ (fun a b => b ≤ f a) l l') (t : α) :
    l.countP (fun a => decide (a ≤ t)) ≤ l'.countP (fun a => decide (a ≤ f t)) := by
  induction h with
  | nil => simp
  | cons hab _ ih =>
    rename_i a b l l' _
    rw [List.countP_cons, List.countP_cons]
    by_cases ha : a ≤ t
    · have hb : b ≤ f t := hab.trans (hf ha)
      simp only [ha, hb, decide_true, if_true]
      omega
    · simp only [ha, decide_false, Bool.false_eq_true, if_false]
      omega

theorem nearest_le {nrm nrm' : List α → α} {rows rows' : List (List α)} {q q' : List α} {f : α → α} {k : Nat}
    (h : ∀ t, (rows.map fun p => distance nrm p q).countP (fun a => decide (a ≤ t)) ≤
      (rows'.map fun p => distance nrm' p q').countP (fun a => decide (a ≤ f t))) (j : Nat) (a b : α)
    (ha : (nearestDistances nrm rows q k)[j]? = some a) (hb : (nearestDistances nrm' rows' q' k)[j]? = some b) : b ≤ f a := by
  unfold nearestDistances at ha hb
  rw [List.getElem?_take] at ha hb
  split at ha
  · rename_i hj
    rw [if_pos hj] at hb
    refine sorted_le (List.pairwise_insertionSort _ _) (List.pairwise_insertionSort _ _) f (fun t => ?_) j a b ha hb
    rw [countP_sort, countP_sort]
    exact h t
  · cases ha

theorem sub_add_sub {p r q : List α} (h1 : p.length = r.length) (h2 : r.length = q.length) :
    List.zipWith (· - ·) p q = List.zipWith (· + ·) (List.zipWith (· - ·) p r) (List.zipWith (· - ·) r q) := by
  refine List.ext_getElem (by simp; omega) fun i hi hi' => ?_
  simp

theorem distance_triangle {nrm : List α → α} (hn : TriangleNorm nrm) {p r q : List α} (h1 : p.length = r.length) (h2 : r.length = q.length) :
    distance nrm p q ≤ distance nrm p r + distance nrm r q := by
  unfold distance
  rw [sub_add_sub h1 h2]
  exact hn.add _ _ (by simp; omega)

theorem distance_comm {nrm : List α → α} (hn : TriangleNorm nrm) (p q : List α) : distance nrm p q = distance nrm q p := by
  unfold distance
  rw [← hn.neg, List.map_zipWith]
  congr 1
  rw [List.zipWith_comm]
  congr 1
  funext a b
  ring

theorem triangle1 : TriangleNorm (norm1 : List α → α) := by
  refine ⟨fun u => ?_, fun u => ?_⟩
  · induction u with
    | nil => intro v _; cases v <;> simp_all [norm1]
    | cons a u ih =>
      intro v h
      cases v with
      | nil => simp at h
      | cons b v =>
        have := ih v (by simpa using h)
        have h2 := abs_add_le a b
        simp only [norm1, List.zipWith_cons_cons, List.map_cons, List.sum_cons] at this ⊢
        linarith
  · simp [norm1, List.map_map, Function.comp_def]

theorem le_foldl_max (l : List α) (z : α) : z ≤ l.foldl max z ∧ ∀ a ∈ l, a ≤ l.foldl max z := by
  induction l generalizing z with
  | nil => simp
  | cons b l ih =>
    obtain ⟨h1, h2⟩ := ih (max z b)
    refine ⟨(le_max_left _ _).trans h1, fun a ha => ?_⟩
    rcases List.mem_cons.mp ha with rfl | ha
    · exact (le_max_right _ _).trans h1
    · exact h2 a ha

theorem foldl_max_le (l : List α) (z c : α) (hz : z ≤ c) (h : ∀ a ∈ l, a ≤ c) : l.foldl max z ≤ c := by
  induction l generalizing z with
  | nil => exact hz
  | cons b l ih => exact ih _ (max_le hz (h b (List.mem_cons_self ..))) fun a ha => h a (List.mem_cons_of_mem _ ha)

theorem normInf_nonneg (u : List α) : 0 ≤ normInf u := (le_foldl_max _ _).1

theorem abs_le_normInf (u : List α) (a : α) (h : a ∈ u) : |a| ≤ normInf u :=
  (le_foldl_max _ _).2 _ (List.mem_map.mpr ⟨a, h, rfl⟩)

theorem normInf_le (u : List α) (c : α) (hc : 0 ≤ c) (h : ∀ a ∈ u, |a| ≤ c) : normInf u ≤ c :=
  foldl_max_le _ _ _ hc fun b hb => by
    obtain ⟨a, ha, rfl⟩ := List.mem_map.mp hb
    exact h a ha

theorem triangleInf : TriangleNorm (normInf : List α → α) := by
  refine ⟨fun u v _ => normInf_le _ _ (add_nonneg (normInf_nonneg u) (normInf_nonneg v)) fun a ha => ?_, fun u => ?_⟩
  · obtain ⟨i, hi, rfl⟩ := List.mem_iff_getElem.mp ha
    rw [List.length_zipWith] at hi
    rw [List.getElem_zipWith]
    exact (abs_add_le _ _).trans
      (add_le_add (abs_le_normInf u _ (List.getElem_mem _)) (abs_le_normInf v _ (List.getElem_mem _)))
  · simp [normInf, List.map_map, Function.comp_def]

theorem triangle2 : TriangleNorm norm2 := by
  refine ⟨fun u v h => ?_, fun u => ?_⟩
  · exact Metric.nrm2.add u v h
  · simp [norm2, List.map_map, Function.comp_def]

theorem normInf_le_norm2 (u : List ℝ) : normInf u ≤ norm2 u := by
  refine normInf_le _ _ (Real.sqrt_nonneg _) fun a ha => ?_
  refine Real.le_sqrt_of_sq_le ?_
  rw [sq_abs, sq]
  refine List.single_le_sum (fun b hb => ?_) _ (List.mem_map.mpr ⟨a, ha, rfl⟩)
  obtain ⟨c, _, rfl⟩ := List.mem_map.mp hb
  exact mul_self_nonneg c

theorem norm1_nonneg (u : List α) : 0 ≤ norm1 u :=
  List.sum_nonneg fun b hb => by
    obtain ⟨c, _, rfl⟩ := List.mem_map.mp hb
    exact abs_nonneg c

theorem norm2_le_norm1 (u : List ℝ) : norm2 u ≤ norm1 u := by
  refine (Real.sqrt_le_left (norm1_nonneg u)).mpr ?_
  induction u with
  | nil => simp [norm1]
  | cons a u ih =>
    have h := norm1_nonneg u
    simp only [norm1, List.map_cons, List.sum_cons] at ih h ⊢
    nlinarith [mul_nonneg (abs_nonneg a) h, abs_mul_abs_self a]

theorem norm1_le (u : List ℝ) : norm1 u ≤ u.length * normInf u := by
  have h : ∀ b ∈ u.map (fun a => |a|), b ≤ normInf u := fun b hb => by
    obtain ⟨a, ha, rfl⟩ := List.mem_map.mp hb
    exact abs_le_normInf u a ha
  simpa [norm1] using List.sum_le_card_nsmul _ _ h

theorem norm2_le (u : List ℝ) : norm2 u ≤ Real.sqrt u.length * normInf u := by
  have h0 := normInf_nonneg u
  unfold norm2
  rw [← Real.sqrt_sq h0, ← Real.sqrt_mul (Nat.cast_nonneg _)]
  refine Real.sqrt_le_sqrt ?_
  have h : ∀ b ∈ u.map (fun a => a * a), b ≤ normInf u ^ 2 := fun b hb => by
    obtain ⟨a, ha, rfl⟩ := List.mem_map.mp hb
    have := abs_le_normInf u a ha
    nlinarith [abs_mul_abs_self a, abs_nonneg a]
  simpa using List.sum_le_card_nsmul _ _ h

end KDStability

open KDStability KDAgreement

section
variable {α : Type} [CommRing α] [LinearOrder α] [IsStrictOrderedRing α]

/-- C157: the three metrics of the library satisfy the triangle inequality and are symmetric. -/
theorem C157_metrics : TriangleNorm (norm1 : List α → α) ∧ TriangleNorm (normInf : List α → α) ∧ TriangleNorm norm2 :=
  ⟨triangle1, triangleInf, triangle2⟩

/-- C157: if the rows of a data set move by at most `e` each and the query point moves, each of the `k` reported distances changes by at most `e`
plus the distance of the query points, in both directions. -/
theorem C157_moved (x x' : DMat α) (hx : x.WF) (hx' : x'.WF) (hcols : x.ncols = x'.ncols)
    (leafSize leafSize' : Nat) (nodes nodes' : List (Node α)) (hb : build x leafSize = .ok nodes) (hb' : build x' leafSize' = .ok nodes')
    (hthree : ∀ p ∈ kdLeaves nodes, 3 ≤ p.1.length) (hthree' : ∀ p ∈ kdLeaves nodes', 3 ≤ p.1.length)
    {nrm : List α → α} (hn : MonotoneNorm nrm) (ht : TriangleNorm nrm)
    {Q Q' : PQueue (WithTop α × Nat)} (hQ : Q.Lawful Prod.fst) (hQ' : Q'.Lawful Prod.fst)
    (hw : FirstFeatureWidest x.ncols x.rows) (hw' : FirstFeatureWidest x'.ncols x'.rows) (e : α)
    (hmove : List.Forall₂ (fun p p' => distance nrm p p' ≤ e) x.rows x'.rows)
    (q q' : List α) (hq : q.length = x.ncols) (hq' : q'.length = x.ncols) (k : Nat) (hk : 1 ≤ k) (hkn : k ≤ x.nrows) :
    ∃ a a', querySingle nrm Q nodes q k = .ok a ∧ querySingle nrm Q' nodes' q' k = .ok a' ∧ a.length = k ∧ a'.length = k ∧
      ∀ (j : Nat) (d d' : WithTop α) (i i' : Nat), a[j]? = some (d, i) → a'[j]? = some (d', i') →
        ∃ c c' : α, d = c ∧ d' = c' ∧ |c - c'| ≤ e + distance nrm q q' := by
  have hlen : x'.nrows = x.nrows := hmove.length_eq.symm
  obtain ⟨a, h1, h2, h3⟩ := kd_query_exact x hx leafSize nodes hb hthree hn hQ hw q hq k hk
  obtain ⟨a', h1', h2', h3'⟩ := kd_query_exact x' hx' leafSize' nodes' hb' hthree' hn hQ' hw' q' (hq'.trans hcols) k hk
  have ha := isKNearest_of_smallest nrm x.rows q k hkn a h2 h3
  have ha' := isKNearest_of_smallest nrm x'.rows q' k (by rw [← hlen] at hkn; exact hkn) a' h2' h3'
  refine ⟨a, a', h1, h1', ha.length, ha'.length, fun j d d' i i' hj hj' => ?_⟩
  have f1 := congrArg (fun l => l[j]?) (fst_eq ha)
  have f2 := congrArg (fun l => l[j]?) (fst_eq ha')
  simp only [List.getElem?_map, hj, hj', Option.map_some] at f1 f2
  obtain ⟨c, hc, hcd⟩ := Option.map_eq_some_iff.mp f1.symm
  obtain ⟨c', hc', hcd'⟩ := Option.map_eq_some_iff.mp f2.symm
  refine ⟨c, c', hcd.symm, hcd'.symm, ?_⟩
  have hpair : List.Forall₂ (fun p p' => distance nrm p' q' ≤ distance nrm p q + (e + distance nrm q q') ∧
      distance nrm p q ≤ distance nrm p' q' + (e + distance nrm q q')) x.rows x'.rows := by
    rw [List.forall₂_iff_get] at hmove ⊢
    refine ⟨hmove.1, fun i hi hi' => ?_⟩
    have hm := hmove.2 i hi hi'
    have l1 : (x.rows.get ⟨i, hi⟩).length = x.ncols := hx _ (List.get_mem _ _)
    have l2 : (x'.rows.get ⟨i, hi'⟩).length = x'.ncols := hx' _ (List.get_mem _ _)
    set p := x.rows.get ⟨i, hi⟩
    set p' := x'.rows.get ⟨i, hi'⟩
    have t1 := distance_triangle ht (p := p') (r := p) (q := q') (by omega) (by omega)
    have t2 := distance_triangle ht (p := p) (r := q) (q := q') (by omega) (by omega)
    have t3 := distance_triangle ht (p := p) (r := p') (q := q) (by omega) (by omega)
    have t4 := distance_triangle ht (p := p') (r := q') (q := q) (by omega) (by omega)
    rw [distance_comm ht q' q] at t4
    rw [distance_comm ht p' p] at t1
    constructor <;> linarith
  rw [abs_le]
  constructor
  · have := nearest_le (nrm := nrm) (nrm' := nrm) (f := fun t => t + (e + distance nrm q q')) (rows := x.rows) (rows' := x'.rows) (q := q) (q' := q')
      (fun t => count_shift (f := fun t => t + (e + distance nrm q q')) (fun _ _ h => by simpa using h) (by rw [List.forall₂_map_left_iff, List.forall₂_map_right_iff]; exact hpair.imp fun _ _ h => h.1) t) j c c' hc hc'
    linarith
  · have := nearest_le (nrm := nrm) (nrm' := nrm) (f := fun t => t + (e + distance nrm q q')) (rows := x'.rows) (rows' := x.rows) (q := q') (q' := q)
      (fun t => count_shift (f := fun t => t + (e + distance nrm q q')) (fun _ _ h => by simpa using h) (by
        rw [List.forall₂_map_left_iff, List.forall₂_map_right_iff]
        exact (hpair.flip).imp fun _ _ h => h.2) t) j c' c hc' hc
    linarith

/-- C157: with more rows no reported distance grows. -/
theorem C157_more_rows (x x' : DMat α) (hx : x.WF) (hx' : x'.WF) (hcols : x.ncols = x'.ncols) (hsub : x.rows.Subperm x'.rows)
    (leafSize leafSize' : Nat) (nodes nodes' : List (Node α)) (hb : build x leafSize = .ok nodes) (hb' : build x' leafSize' = .ok nodes')
    (hthree : ∀ p ∈ kdLeaves nodes, 3 ≤ p.1.length) (hthree' : ∀ p ∈ kdLeaves nodes', 3 ≤ p.1.length)
    {nrm : List α → α} (hn : MonotoneNorm nrm) {Q Q' : PQueue (WithTop α × Nat)} (hQ : Q.Lawful Prod.fst) (hQ' : Q'.Lawful Prod.fst)
    (hw : FirstFeatureWidest x.ncols x.rows) (hw' : FirstFeatureWidest x'.ncols x'.rows)
    (q : List α) (hq : q.length = x.ncols) (k : Nat) (hk : 1 ≤ k) (hkn : k ≤ x.nrows) :
    ∃ a a', querySingle nrm Q nodes q k = .ok a ∧ querySingle nrm Q' nodes' q k = .ok a' ∧ a.length = k ∧ a'.length = k ∧
      ∀ (j : Nat) (d d' : WithTop α) (i i' : Nat), a[j]? = some (d, i) → a'[j]? = some (d', i') → d' ≤ d := by
  have hlen : x.nrows ≤ x'.nrows := hsub.length_le
  obtain ⟨a, h1, h2, h3⟩ := kd_query_exact x hx leafSize nodes hb hthree hn hQ hw q hq k hk
  obtain ⟨a', h1', h2', h3'⟩ := kd_query_exact x' hx' leafSize' nodes' hb' hthree' hn hQ' hw' q (hq.trans hcols) k hk
  have ha := isKNearest_of_smallest nrm x.rows q k hkn a h2 h3
  have ha' := isKNearest_of_smallest nrm x'.rows q k (hkn.trans hlen) a' h2' h3'
  refine ⟨a, a', h1, h1', ha.length, ha'.length, fun j d d' i i' hj hj' => ?_⟩
  have f1 := congrArg (fun l => l[j]?) (fst_eq ha)
  have f2 := congrArg (fun l => l[j]?) (fst_eq ha')
  simp only [List.getElem?_map, hj, hj', Option.map_some] at f1 f2
  obtain ⟨c, hc, hcd⟩ := Option.map_eq_some_iff.mp f1.symm
  obtain ⟨c', hc', hcd'⟩ := Option.map_eq_some_iff.mp f2.symm
  rw [← hcd, ← hcd', WithTop.coe_le_coe]
  have := nearest_le (nrm := nrm) (nrm' := nrm) (f := fun t => t + 0) (rows := x.rows) (rows' := x'.rows) (q := q) (q' := q)
    (fun t => by
      rw [add_zero]
      obtain ⟨l, hl, hs⟩ := hsub
      rw [← (hl.map fun p => distance nrm p q).countP_eq]
      exact (hs.map _).countP_le) j c c' hc hc'
  rwa [add_zero] at this

/-- C157: a row reported within `radius` of one point is reported within every radius larger than `radius` plus the distance to a second
point, when that point is asked, whatever trees answer. -/
theorem C157_radius (x : DMat α) (hx : x.WF) (leafSize leafSize' : Nat) (nodes nodes' : List (Node α))
    (hb : build x leafSize = .ok nodes) (hb' : build x leafSize' = .ok nodes') {nrm : List α → α} (hn : MonotoneNorm nrm)
    (ht : TriangleNorm nrm) (hw : FirstFeatureWidest x.ncols x.rows) (q q' : List α) (hq : q.length = x.ncols) (hq' : q'.length = x.ncols)
    (radius radius' : α) (hr : radius + distance nrm q q' < radius') :
    ∃ a a', radiusSingle nrm nodes q radius = .ok a ∧ radiusSingle nrm nodes' q' radius' = .ok a' ∧
      (∀ i ∈ a.map Prod.snd, i ∈ a'.map Prod.snd) ∧ a.length ≤ a'.length := by
  obtain ⟨a, h1, h2, h3, _⟩ := C18_radius x hx leafSize nodes hb hn q hq radius
  obtain ⟨a', h1', _, _, h4'⟩ := C18_radius x hx leafSize' nodes' hb' hn q' hq' radius'
  have hsub : ∀ i ∈ a.map Prod.snd, i ∈ a'.map Prod.snd := by
    intro i hi
    obtain ⟨e, he, rfl⟩ := List.mem_map.mp hi
    obtain ⟨hle, p, hp, hd⟩ := h3 e he
    have hl : p.length = x.ncols := hx p (List.mem_of_getElem? hp)
    have t := distance_triangle ht (p := p) (r := q) (q := q') (by omega) (by omega)
    exact List.mem_map.mpr ⟨_, h4' hw e.2 p hp (by rw [hd] at hle; linarith), rfl⟩
  refine ⟨a, a', h1, h1', hsub, ?_⟩
  have := (h2.subperm hsub).length_le
  simpa using this

end

/-- C157: for real data the `j`-th distance reported under the maximum metric is at most the one reported under the Euclidean metric, which is
at most the one under the sum metric; with `m` features the first two differ at most by the factor `√m`, the first and the last by `m`. -/
theorem C157_order (x : DMat ℝ) (hx : x.WF) (leafSize : Nat) (nodes : List (Node ℝ)) (hb : build x leafSize = .ok nodes)
    (hthree : ∀ p ∈ kdLeaves nodes, 3 ≤ p.1.length) {Q : PQueue (WithTop ℝ × Nat)} (hQ : Q.Lawful Prod.fst)
    (hw : FirstFeatureWidest x.ncols x.rows) (q : List ℝ) (hq : q.length = x.ncols) (k : Nat) (hk : 1 ≤ k) (hkn : k ≤ x.nrows) :
    ∃ a b c, querySingle normInf Q nodes q k = .ok a ∧ querySingle norm2 Q nodes q k = .ok b ∧ querySingle norm1 Q nodes q k = .ok c ∧
      a.length = k ∧ b.length = k ∧ c.length = k ∧
      ∀ j < k, ∃ (u v w : ℝ) (i i' i'' : Nat), a[j]? = some ((u : WithTop ℝ), i) ∧ b[j]? = some ((v : WithTop ℝ), i') ∧
        c[j]? = some ((w : WithTop ℝ), i'') ∧ u ≤ v ∧ v ≤ w ∧ v ≤ Real.sqrt x.ncols * u ∧ w ≤ x.ncols * u := by
  have ask : ∀ {nrm : List ℝ → ℝ}, MonotoneNorm nrm → ∃ a, querySingle nrm Q nodes q k = .ok a ∧ a.length = k ∧
      ∀ j < k, ∃ (u : ℝ) (i : Nat), a[j]? = some ((u : WithTop ℝ), i) ∧ (nearestDistances nrm x.rows q k)[j]? = some u := by
    intro nrm hn
    obtain ⟨a, h1, h2, h3⟩ := kd_query_exact x hx leafSize nodes hb hthree hn hQ hw q hq k hk
    have ha := isKNearest_of_smallest nrm x.rows q k hkn a h2 h3
    refine ⟨a, h1, ha.length, fun j hj => ?_⟩
    have hja : a[j]? = some (a[j]'(by rw [ha.length]; exact hj)) := List.getElem?_eq_getElem _
    have f1 := congrArg (fun l => l[j]?) (fst_eq ha)
    simp only [List.getElem?_map, hja, Option.map_some] at f1
    obtain ⟨c, hc, hcd⟩ := Option.map_eq_some_iff.mp f1.symm
    exact ⟨c, _, by rw [hja, hcd], hc⟩
  obtain ⟨a, a1, a2, a3⟩ := ask normInf_monotone
  obtain ⟨b, b1, b2, b3⟩ := ask norm2_monotone
  obtain ⟨c, c1, c2, c3⟩ := ask norm1_monotone
  refine ⟨a, b, c, a1, b1, c1, a2, b2, c2, fun j hj => ?_⟩
  obtain ⟨u, i, u1, u2⟩ := a3 j hj
  obtain ⟨v, i', v1, v2⟩ := b3 j hj
  obtain ⟨w, i'', w1, w2⟩ := c3 j hj
  have hlen : ∀ p ∈ x.rows, (List.zipWith (· - ·) p q).length = x.ncols := fun p hp => by
    rw [List.length_zipWith, hx p hp, hq, Nat.min_self]
  have mono : ∀ {nrm nrm' : List ℝ → ℝ} {f : ℝ → ℝ}, Monotone f →
      (∀ p ∈ x.rows, nrm' (List.zipWith (· - ·) p q) ≤ f (nrm (List.zipWith (· - ·) p q))) → ∀ (j : Nat) (a b : ℝ),
      (nearestDistances nrm x.rows q k)[j]? = some a → (nearestDistances nrm' x.rows q k)[j]? = some b → b ≤ f a := by
    intro nrm nrm' f hf h j a b ha hb
    refine nearest_le (f := f) (fun t => count_shift hf ?_ t) j a b ha hb
    rw [List.forall₂_map_left_iff, List.forall₂_map_right_iff, List.forall₂_same]
    exact h
  refine ⟨u, v, w, i, i', i'', u1, v1, w1, ?_, ?_, ?_, ?_⟩
  · simpa using mono (f := id) monotone_id (fun p _ => normInf_le_norm2 _) j v u v2 u2
  · simpa using mono (f := id) monotone_id (fun p _ => norm2_le_norm1 _) j w v w2 v2
  · refine mono (f := fun t => Real.sqrt x.ncols * t) (fun _ _ h => mul_le_mul_of_nonneg_left h (Real.sqrt_nonneg _)) (fun p hp => ?_)
      j u v u2 v2
    rw [← hlen p hp]
    exact norm2_le _
  · refine mono (f := fun t => x.ncols * t) (fun _ _ h => mul_le_mul_of_nonneg_left h (Nat.cast_nonneg _)) (fun p hp => ?_)
      j u w u2 w2
    rw [← hlen p hp]
    exact norm1_le _

/-- Beside C157_moved: the points of `kdGood` with each second feature one larger. -/
def kdShifted : DMat Int := ⟨2, kdGood.rows.map fun r => [r.getD 0 0, r.getD 1 0 + 1]⟩

/-- Beside C157_more_rows: two rows more. -/
def kdMore : DMat Int := ⟨2, [[13, 5], [95, 4]] ++ kdGood.rows⟩

/-- The second query point is 3 away from the first and each row moved by 1: each distance changes by at most 4. The last data set has two
rows more than the first. -/
example : kdAsk kdGood [12, 5] 3 = .ok [(((3 : Int) : WithTop Int), 9), (((8 : Int) : WithTop Int), 2), (((14 : Int) : WithTop Int), 0)] ∧
    kdAsk kdShifted [14, 6] 3 = .ok [(((5 : Int) : WithTop Int), 9), (((6 : Int) : WithTop Int), 2), (((16 : Int) : WithTop Int), 0)] ∧
    kdAsk kdMore [12, 5] 3 = .ok [(((1 : Int) : WithTop Int), 0), (((3 : Int) : WithTop Int), 11), (((8 : Int) : WithTop Int), 4)] := by
  refine ⟨?_, ?_, ?_⟩ <;> decide +kernel

example : kdShifted.WF ∧ kdMore.WF ∧ List.Forall₂ (fun p p' => distance norm1 p p' ≤ 1) kdGood.rows kdShifted.rows ∧
    kdGood.rows.Subperm kdMore.rows ∧ distance norm1 ([12, 5] : List Int) [14, 6] = 3 := by
  refine ⟨by decide, by decide, by decide +kernel, ?_, by decide⟩
  exact (List.sublist_append_right _ _).subperm

example : FirstFeatureWidest kdShifted.ncols kdShifted.rows ∧ FirstFeatureWidest kdMore.ncols kdMore.rows := by
  have h : ∀ p ∈ kdShifted.rows ++ kdMore.rows, ∀ a ∈ p, 0 ≤ a ∧ a ≤ 110 := by decide +kernel
  have hb : ∀ a b : Int, (0 ≤ a ∧ a ≤ 110) → (0 ≤ b ∧ b ≤ 110) → |a - b| ≤ |(0 : Int) - 110| := by
    intro a b h1 h2
    rw [abs_le]
    constructor <;> norm_num <;> omega
  constructor
  · intro j hj p hp q hq a b ha hb'
    exact ⟨[0, 4], by decide, [110, 12], by decide, 0, 110, rfl, rfl, hb a b
      (h p (List.mem_append_left _ hp) a (List.mem_of_getElem? ha)) (h q (List.mem_append_left _ hq) b (List.mem_of_getElem? hb'))⟩
  · intro j hj p hp q hq a b ha hb'
    exact ⟨[0, 3], by decide, [110, 11], by decide, 0, 110, rfl, rfl, hb a b
      (h p (List.mem_append_right _ hp) a (List.mem_of_getElem? ha)) (h q (List.mem_append_right _ hq) b (List.mem_of_getElem? hb'))⟩

/-- Beside C157_radius: everything within 9 of `[12, 5]` is within 13 of `[14, 6]`. -/
example : kdAskRadius kdGood [[12, 5]] 9 = .ok [[(3, 9), (8, 2)]] ∧ kdAskRadius kdGood [[14, 6]] 13 = .ok [[(4, 9), (7, 2)]] := by
  decide +kernel

end OpenML
