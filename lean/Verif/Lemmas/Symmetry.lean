import Verif.Lemmas.Simulation
import Verif.Lemmas.Descent

/-!
# Optimizers on data with reordered features, changed signs and exchanged labels
-/

namespace OpenML.Symmetry

open Spec Loss SGD SCD Descent
open scoped BigOperators

variable {d : Nat}

/-- Entry `j` of the result is entry `π j` with sign `ε j`. -/
def moved (ε : Fin d → ℝ) (π : Equiv.Perm (Fin d)) (a : Fin d → ℝ) : Fin d → ℝ := fun j => ε j * a (π j)

/-- Two lists, the second of which is the first one moved. -/
def Moved (ε : Fin d → ℝ) (π : Equiv.Perm (Fin d)) (x x' : List ℝ) : Prop := ∃ a, x = List.ofFn a ∧ x' = List.ofFn (moved ε π a)

variable {ε : Fin d → ℝ} {π : Equiv.Perm (Fin d)} {δ : ℝ}

theorem getD_ofFn (a : Fin d → ℝ) (j : Fin d) : (List.ofFn a).getD j 0 = a j := by simp [List.getD_eq_getElem?_getD]

theorem score_moved (hε : ∀ j, ε j = 1 ∨ ε j = -1) {x x' : List ℝ} (hx : Moved ε π x x') (w : Fin d → ℝ) :
    score x' (moved (fun j => δ * ε j) π w) = δ * score x w := by
  obtain ⟨a, rfl, rfl⟩ := hx
  unfold score
  rw [Finset.mul_sum, ← Equiv.sum_comp π fun j => δ * ((List.ofFn a).getD j 0 * w j)]
  refine Finset.sum_congr rfl fun j _ => ?_
  rw [getD_ofFn, getD_ofFn]
  simp only [moved]
  rcases hε j with h | h <;> rw [h] <;> ring

section Samples
variable (phi dphi : ℝ → ℝ → ℝ) (σ : ℝ → ℝ)

theorem losses_moved (hε : ∀ j, ε j = 1 ∨ ε j = -1) (hphi : ∀ y s, phi (σ y) (δ * s) = phi y s) {rows rows' : List (List ℝ)}
    {z z' : List ℝ} (hr : List.Forall₂ (Moved ε π) rows rows') (hz : List.Forall₂ (fun a b => b = σ a) z z') (w : Fin d → ℝ) :
    ((rows'.zip z').map fun p => phi p.2 (score p.1 (moved (fun j => δ * ε j) π w))) =
      (rows.zip z).map fun p => phi p.2 (score p.1 w) := by
  induction hr generalizing z z' with
  | nil => simp
  | cons hx _ ih =>
    cases hz with
    | nil => simp
    | cons hy hz =>
      subst hy
      simp only [List.zip_cons_cons, List.map_cons, ih hz]
      rw [score_moved hε hx, hphi]

theorem grads_moved (hε : ∀ j, ε j = 1 ∨ ε j = -1) (hd : ∀ y s, dphi (σ y) (δ * s) = δ * dphi y s) {rows rows' : List (List ℝ)}
    {z z' : List ℝ} (hr : List.Forall₂ (Moved ε π) rows rows') (hz : List.Forall₂ (fun a b => b = σ a) z z') (w : Fin d → ℝ)
    (j : Fin d) :
    ((rows'.zip z').map fun p => dphi p.2 (score p.1 (moved (fun j => δ * ε j) π w)) * p.1.getD j 0).sum =
      δ * ε j * ((rows.zip z).map fun p => dphi p.2 (score p.1 w) * p.1.getD (π j) 0).sum := by
  induction hr generalizing z z' with
  | nil => simp
  | cons hx _ ih =>
    cases hz with
    | nil => simp
    | cons hy hz =>
      subst hy
      simp only [List.zip_cons_cons, List.map_cons, List.sum_cons, ih hz]
      rw [score_moved hε hx, hd]
      obtain ⟨a, rfl, rfl⟩ := hx
      rw [getD_ofFn, getD_ofFn]
      unfold moved
      ring

theorem gradOf_moved (hε : ∀ j, ε j = 1 ∨ ε j = -1) (hd : ∀ y s, dphi (σ y) (δ * s) = δ * dphi y s) (lambda : ℝ)
    {rows rows' : List (List ℝ)} {z z' : List ℝ} (hr : List.Forall₂ (Moved ε π) rows rows')
    (hz : List.Forall₂ (fun a b => b = σ a) z z') (w : Fin d → ℝ) :
    gradOf dphi lambda (rows'.zip z') (moved (fun j => δ * ε j) π w) =
      moved (fun j => δ * ε j) π (gradOf dphi lambda (rows.zip z) w) := by
  funext j
  unfold gradOf
  rw [grads_moved dphi σ hε hd hr hz]
  have hl : (rows'.zip z').length = (rows.zip z).length := by
    rw [List.length_zip, List.length_zip, hr.length_eq, hz.length_eq]
  rw [hl]
  unfold moved
  ring

theorem objective_moved (hε : ∀ j, ε j = 1 ∨ ε j = -1) (hδ : δ = 1 ∨ δ = -1) (hphi : ∀ y s, phi (σ y) (δ * s) = phi y s) (lambda : ℝ)
    {rows rows' : List (List ℝ)} {z z' : List ℝ} (hr : List.Forall₂ (Moved ε π) rows rows')
    (hz : List.Forall₂ (fun a b => b = σ a) z z') (w : Fin d → ℝ) :
    objective phi lambda (rows'.zip z') (moved (fun j => δ * ε j) π w) = objective phi lambda (rows.zip z) w := by
  have hl : (rows'.zip z').length = (rows.zip z).length := by
    rw [List.length_zip, List.length_zip, hr.length_eq, hz.length_eq]
  unfold objective meanLoss ridgeTerm
  rw [losses_moved phi σ hε hphi hr hz, hl]
  congr 3
  rw [← Equiv.sum_comp π fun j => w j ^ 2]
  refine Finset.sum_congr rfl fun j _ => ?_
  simp only [moved]
  rcases hε j with h | h <;> rcases hδ with h' | h' <;> rw [h, h'] <;> ring

end Samples

theorem clipped_neg (a : ℝ) : clipped (-a) = -clipped a := by
  unfold clipped
  rcases le_total a (10 ^ 10) with h | h <;> rcases le_total (-10 ^ 10) a with h' | h'
  · rw [min_eq_left h, max_eq_left h', min_eq_left (by linarith), max_eq_left (by linarith)]
  · rw [min_eq_left h, max_eq_right h', min_eq_right (by linarith), max_eq_left (by norm_num)]
    norm_num
  · have h1 : max (min a (10 ^ 10 : ℝ)) (-10 ^ 10) = 10 ^ 10 := by rw [min_eq_right h, max_eq_left (by norm_num)]
    rw [h1, min_eq_left (by linarith), max_eq_right (by linarith)]
  · linarith

theorem sign_cases (hε : ∀ j, ε j = 1 ∨ ε j = -1) (hδ : δ = 1 ∨ δ = -1) (j : Fin d) : δ * ε j = 1 ∨ δ * ε j = -1 := by
  rcases hε j with h | h <;> rcases hδ with h' | h' <;> rw [h, h'] <;> norm_num

theorem clipped_sign {s : ℝ} (hs : s = 1 ∨ s = -1) (a : ℝ) : clipped (s * a) = s * clipped a := by
  rcases hs with rfl | rfl
  · rw [one_mul, one_mul]
  · rw [neg_one_mul, neg_one_mul, clipped_neg]

theorem clipGrad_ofFn (a : Fin d → ℝ) : clipGrad (List.ofFn a) = List.ofFn fun j => clipped (a j) := by
  rw [clipGrad_eq, List.map_ofFn]
  rfl

theorem Moved.clip (hε : ∀ j, ε j = 1 ∨ ε j = -1) {g g' : List ℝ} (h : Moved ε π g g') : Moved ε π (clipGrad g) (clipGrad g') := by
  obtain ⟨a, rfl, rfl⟩ := h
  refine ⟨fun j => clipped (a j), clipGrad_ofFn a, ?_⟩
  rw [clipGrad_ofFn]
  congr 1
  funext j
  exact clipped_sign (hε j) _

theorem subV_rel {a b a' b' : List ℝ} (ha : Moved ε π a a') (hb : Moved ε π b b') :
    Res.Rel (Moved ε π) (subV a b) (subV a' b') := by
  obtain ⟨f, rfl, rfl⟩ := ha
  obtain ⟨g, rfl, rfl⟩ := hb
  unfold subV
  rw [if_pos (by simp), if_pos (by simp)]
  refine .ok ⟨fun j => f j - g j, ?_, ?_⟩
  · exact List.ext_getElem (by simp) fun i h1 h2 => by simp
  · exact List.ext_getElem (by simp) fun i h1 h2 => by simp [moved]; ring

theorem addV_rel {a b a' b' : List ℝ} (ha : Moved ε π a a') (hb : Moved ε π b b') :
    Res.Rel (Moved ε π) (addV a b) (addV a' b') := by
  obtain ⟨f, rfl, rfl⟩ := ha
  obtain ⟨g, rfl, rfl⟩ := hb
  unfold addV
  rw [if_pos (by simp), if_pos (by simp)]
  refine .ok ⟨fun j => f j + g j, ?_, ?_⟩
  · exact List.ext_getElem (by simp) fun i h1 h2 => by simp
  · exact List.ext_getElem (by simp) fun i h1 h2 => by simp [moved]; ring

theorem map_mul_moved {a a' : List ℝ} (ha : Moved ε π a a') (c : ℝ) : Moved ε π (a.map fun x => c * x) (a'.map fun x => c * x) := by
  obtain ⟨f, rfl, rfl⟩ := ha
  refine ⟨fun j => c * f j, ?_, ?_⟩
  · rw [List.map_ofFn]; rfl
  · rw [List.map_ofFn]
    congr 1
    funext j
    simp only [moved, Function.comp]
    ring

theorem map_div_moved {a a' : List ℝ} (ha : Moved ε π a a') (c : ℝ) : Moved ε π (a.map fun x => x / c) (a'.map fun x => x / c) := by
  have := map_mul_moved ha c⁻¹
  simpa only [div_eq_inv_mul] using this

theorem vanilla_rel {w w' g g' : List ℝ} (hw : Moved ε π w w') (hg : Moved ε π g g') (lr : ℝ) :
    Res.Rel (Moved ε π) (vanillaUpdate w g lr) (vanillaUpdate w' g' lr) := subV_rel hw (map_mul_moved hg lr)

theorem readAt_rel {β γ : Type} {r : β → γ → Prop} {l : List β} {m : List γ} (h : List.Forall₂ r l m) (i : Nat) :
    Res.Rel r (readAt l i) (readAt m i) := by
  by_cases hi : i < l.length
  · rw [readAt_of_lt hi, readAt_of_lt (by rw [← h.length_eq]; exact hi)]
    exact .ok ((List.forall₂_iff_get.mp h).2 i hi (by rw [← h.length_eq]; exact hi))
  · have h1 : l[i]? = none := List.getElem?_eq_none (by omega)
    have h2 : m[i]? = none := List.getElem?_eq_none (by rw [← h.length_eq]; omega)
    unfold readAt
    rw [h1, h2]
    exact .ub

section Losses
variable {loss : LossFn ℝ (List ℝ)} {phi dphi : ℝ → ℝ → ℝ} {lambda : ℝ} {σ : ℝ → ℝ}

theorem wf_left {rows rows' : List (List ℝ)} (hr : List.Forall₂ (Moved ε π) rows rows') : (⟨d, rows⟩ : DMat ℝ).WF := by
  intro r hr'
  obtain ⟨i, hi, rfl⟩ := List.getElem_of_mem hr'
  obtain ⟨a, ha, _⟩ := (List.forall₂_iff_get.mp hr).2 i hi (by rw [← hr.length_eq]; exact hi)
  rw [List.get_eq_getElem] at ha
  rw [ha]
  simp

theorem wf_right {rows rows' : List (List ℝ)} (hr : List.Forall₂ (Moved ε π) rows rows') : (⟨d, rows'⟩ : DMat ℝ).WF := by
  intro r hr'
  obtain ⟨i, hi, rfl⟩ := List.getElem_of_mem hr'
  obtain ⟨a, _, ha⟩ := (List.forall₂_iff_get.mp hr).2 i (by rw [hr.length_eq]; exact hi) hi
  rw [List.get_eq_getElem] at ha
  rw [ha]
  simp

theorem gradient_rel (hm : IsMean loss phi dphi lambda) (hε : ∀ j, ε j = 1 ∨ ε j = -1)
    (hd : ∀ y s, dphi (σ y) (δ * s) = δ * dphi y s) {rows rows' : List (List ℝ)} {z z' : List ℝ}
    (hr : List.Forall₂ (Moved ε π) rows rows') (hz : List.Forall₂ (fun a b => b = σ a) z z') (hl : z.length = rows.length)
    {w w' : List ℝ} (hw : Moved (fun j => δ * ε j) π w w') :
    ∃ g g', loss.gradient ⟨d, rows⟩ z w = .ok g ∧ loss.gradient ⟨d, rows'⟩ z' w' = .ok g' ∧ Moved (fun j => δ * ε j) π g g' := by
  obtain ⟨f, rfl, rfl⟩ := hw
  refine ⟨_, _, hm.gradient ⟨d, rows⟩ (wf_left hr) z hl f, hm.gradient ⟨d, rows'⟩ (wf_right hr) z' (by
    rw [← hz.length_eq, hl]; exact hr.length_eq) _, _, rfl, ?_⟩
  rw [gradOf_moved dphi σ hε hd lambda hr hz]

theorem evaluate_rel (hm : IsMean loss phi dphi lambda) (hε : ∀ j, ε j = 1 ∨ ε j = -1) (hδ : δ = 1 ∨ δ = -1)
    (hphi : ∀ y s, phi (σ y) (δ * s) = phi y s) {rows rows' : List (List ℝ)} {z z' : List ℝ}
    (hr : List.Forall₂ (Moved ε π) rows rows') (hz : List.Forall₂ (fun a b => b = σ a) z z') (hl : z.length = rows.length)
    {w w' : List ℝ} (hw : Moved (fun j => δ * ε j) π w w') :
    loss.evaluate ⟨d, rows⟩ z w = loss.evaluate ⟨d, rows'⟩ z' w' := by
  obtain ⟨f, rfl, rfl⟩ := hw
  have hl' : z'.length = rows'.length := by rw [← hz.length_eq, hl, hr.length_eq]
  rw [hm.evaluate ⟨d, rows⟩ (wf_left hr) z hl f, hm.evaluate ⟨d, rows'⟩ (wf_right hr) z' hl' _]
  have h := objective_moved phi σ hε hδ hphi lambda hr hz f
  unfold objective at h
  rw [List.length_zip, List.length_zip, hl, hl', Nat.min_self, Nat.min_self] at h
  exact congrArg Res.ok h.symm

variable (hm : IsMean loss phi dphi lambda) (hε : ∀ j, ε j = 1 ∨ ε j = -1) (hδ : δ = 1 ∨ δ = -1)
  (hphi : ∀ y s, phi (σ y) (δ * s) = phi y s) (hd : ∀ y s, dphi (σ y) (δ * s) = δ * dphi y s)

include hm hε hδ hphi hd in
theorem sgd_moved (p : Params ℝ) {X X' : DMat ℝ} {y y' : List ℝ}
    (hD : DataRel d (Moved ε π) (fun a b => b = σ a) (X, y) (X', y')) {w w' : List ℝ}
    (hw : Moved (fun j => δ * ε j) π w w') :
    Res.Rel (Moved (fun j => δ * ε j) π) (sgd loss clipGrad vanillaUpdate p X y w) (sgd loss clipGrad vanillaUpdate p X' y' w') := by
  refine (optimize_rel loss loss id id _ _ (Moved (fun j => δ * ε j) π) d (Moved ε π) (fun a b => b = σ a) Eq p.batchSize
    (X.nrows / p.batchSize) ?_ ?_ p p rfl rfl rfl rfl rfl rfl (fun i => Res.Rel.refl _) hD rfl w w' hw).mono ?_
  · rintro j _ s t rows rows' z z' lr _ hst hr hz hrl hzl rfl
    obtain ⟨g, g', h1, h2, h3⟩ := gradient_rel hm hε hd hr hz (hzl.trans hrl.symm) hst
    unfold sgdStep
    rw [h1, h2]
    exact vanilla_rel hst (h3.clip (sign_cases hε hδ)) lr
  · intro s t rows rows' z z' hst hr hz hrl hzl
    exact evaluate_rel hm hε hδ hphi hr hz (hzl.trans hrl.symm) hst
  · rintro b c ⟨s, t, h, rfl, rfl⟩
    exact h

include hm hε hδ hphi hd in
theorem sag_moved (p : Params ℝ) {X X' : DMat ℝ} {y y' : List ℝ}
    (hD : DataRel d (Moved ε π) (fun a b => b = σ a) (X, y) (X', y')) {w w' : List ℝ}
    (hw : Moved (fun j => δ * ε j) π w w') :
    Res.Rel (Moved (fun j => δ * ε j) π) (sag loss vanillaUpdate p X y w) (sag loss vanillaUpdate p X' y' w') := by
  have h0 : Moved (fun j => δ * ε j) π (List.replicate d 0) (List.replicate d 0) := by
    refine ⟨fun _ => 0, ?_, ?_⟩
    · simp [List.ofFn_const]
    · have : moved (fun j => δ * ε j) π (fun _ => 0) = fun _ : Fin d => (0 : ℝ) := by
        funext j; simp [moved]
      rw [this]
      simp [List.ofFn_const]
  have hn : X'.nrows = X.nrows := hD.2.2.1.length_eq.symm
  unfold sag
  rw [show X.ncols = d from hD.1, show X'.ncols = d from hD.2.1, hn]
  refine (optimize_rel loss loss SagState.w SagState.w _ _
    (fun s t => Moved (fun j => δ * ε j) π s.w t.w ∧ List.Forall₂ (Moved (fun j => δ * ε j) π) s.history t.history ∧
      Moved (fun j => δ * ε j) π s.avg t.avg) d (Moved ε π) (fun a b => b = σ a) Eq p.batchSize
    (X.nrows / p.batchSize) ?_ ?_ p p rfl rfl rfl rfl rfl rfl (fun i => Res.Rel.refl _) hD rfl _ _ ⟨hw, ?_, h0⟩).mono ?_
  · rintro j _ s t rows rows' z z' lr _ ⟨hs1, hs2, hs3⟩ hr hz hrl hzl rfl
    obtain ⟨g, g', h1, h2, h3⟩ := gradient_rel hm hε hd hr hz (hzl.trans hrl.symm) hs1
    unfold sagStep
    rw [h1, h2, Res.bind_ok, Res.bind_ok]
    have hc := h3.clip (sign_cases hε hδ)
    refine (readAt_rel hs2 j).bind fun old old' hold => (subV_rel hc hold).bind fun diff diff' hdiff =>
      (addV_rel hs3 (map_div_moved hdiff _)).bind fun avg avg' havg => (vanilla_rel hs1 havg lr).bind fun v v' hv => .ok ⟨hv, ?_, havg⟩
    exact forall₂_set hs2 j hc
  · rintro s t rows rows' z z' ⟨hs1, _, _⟩ hr hz hrl hzl
    exact evaluate_rel hm hε hδ hphi hr hz (hzl.trans hrl.symm) hs1
  · generalize X.nrows / p.batchSize = k
    induction k with
    | zero => exact .nil
    | succ k ih => exact .cons h0 ih
  · rintro b c ⟨s, t, h, rfl, rfl⟩
    exact h.1

theorem predictedChange_sign {s : ℝ} (hs : s = 1 ∨ s = -1) (beta mu x g e : ℝ) :
    predictedChange beta mu (s * x) (s * g) (s * e) = predictedChange beta mu x g e := by
  unfold predictedChange
  rcases hs with rfl | rfl
  · simp
  · rw [show -1 * x + -1 * e = -(x + e) by ring, show -1 * x = -x by ring, abs_neg, abs_neg]
    ring

include hm hε hδ hd in
/-- An iteration of coordinate descent on data with changed signs. Features are not reordered, since ties are broken by the
order of the features. -/
theorem scdStep_moved (beta mu : ℝ) (hb : 0 < beta) (hmu : 0 ≤ mu) (hdim : 0 < d) {rows rows' : List (List ℝ)} {z z' : List ℝ}
    (hr : List.Forall₂ (Moved ε (Equiv.refl _)) rows rows') (hz : List.Forall₂ (fun a b => b = σ a) z z')
    (hl : z.length = rows.length) {w w' : List ℝ} (hw : Moved (fun j => δ * ε j) (Equiv.refl _) w w') :
    Res.Rel (Moved (fun j => δ * ε j) (Equiv.refl _)) (scdStep loss beta mu ⟨d, rows⟩ z w) (scdStep loss beta mu ⟨d, rows'⟩ z' w') := by
  obtain ⟨g, g', h1, h2, h3⟩ := gradient_rel hm hε hd hr hz hl hw
  obtain ⟨f, rfl, rfl⟩ := hw
  obtain ⟨q, rfl, rfl⟩ := h3
  have hs := sign_cases hε hδ
  obtain ⟨k, hk, e, he, _, hall, huniq, hfirst⟩ := C51_step_optimal loss beta mu hb hmu ⟨d, rows⟩ z _ _ h1 (by simp) (by simp) hdim
  obtain ⟨k', hk', e', he', _, hall', huniq', hfirst'⟩ := C51_step_optimal loss beta mu hb hmu ⟨d, rows'⟩ z' _ _ h2 (by simp) (by simp) hdim
  dsimp only at hk hk' hall hall'
  have hget : ∀ (a : Fin d → ℝ) j (hj : j < d), (List.ofFn a).getD j 0 = a ⟨j, hj⟩ := fun a j hj => getD_ofFn a ⟨j, hj⟩
  have hsq : ∀ j, (δ * ε j) * (δ * ε j) = 1 := by
    intro j
    rcases hs j with h | h <;> rw [h] <;> norm_num
  have hpc : ∀ (j : Nat) (hj : j < d) (e : ℝ), predictedChange beta mu ((List.ofFn (moved (fun j => δ * ε j) (Equiv.refl _) f)).getD j 0)
      ((List.ofFn (moved (fun j => δ * ε j) (Equiv.refl _) q)).getD j 0) (δ * ε ⟨j, hj⟩ * e) =
      predictedChange beta mu ((List.ofFn f).getD j 0) ((List.ofFn q).getD j 0) e := by
    intro j hj e
    rw [hget _ j hj, hget _ j hj, hget _ j hj, hget _ j hj]
    exact predictedChange_sign (hs _) beta mu _ _ e
  have hback : ∀ (j : Nat) (hj : j < d) (e : ℝ), predictedChange beta mu ((List.ofFn (moved (fun j => δ * ε j) (Equiv.refl _) f)).getD j 0)
      ((List.ofFn (moved (fun j => δ * ε j) (Equiv.refl _) q)).getD j 0) e =
      predictedChange beta mu ((List.ofFn f).getD j 0) ((List.ofFn q).getD j 0) (δ * ε ⟨j, hj⟩ * e) := by
    intro j hj e
    rw [← hpc j hj (δ * ε ⟨j, hj⟩ * e), ← mul_assoc, hsq, one_mul]
  have hkk : k = k' := by
    rcases lt_trichotomy k k' with hlt | heq | hgt
    · have h4 := hfirst' k hlt (δ * ε ⟨k, hk⟩ * e)
      rw [hpc k hk e, hback k' hk' e'] at h4
      exact absurd (hall k' hk' _) (not_le.mpr h4)
    · exact heq
    · have h4 := hfirst k' hgt (δ * ε ⟨k', hk'⟩ * e')
      rw [← hpc k hk e, ← hback k' hk' e'] at h4
      exact absurd (hall' k hk _) (not_le.mpr h4)
  subst hkk
  have hee : e' = δ * ε ⟨k, hk⟩ * e := by
    by_contra hne
    have h4 := huniq' (δ * ε ⟨k, hk⟩ * e) (fun h => hne h.symm)
    rw [hpc k hk e, hback k hk e'] at h4
    exact absurd (hall k hk _) (not_le.mpr h4)
  rw [he, he']
  refine .ok ⟨Function.update f ⟨k, hk⟩ (f ⟨k, hk⟩ + e), ?_, ?_⟩
  · rw [hget _ k hk]
    exact ofFn_set f ⟨k, hk⟩ _
  · rw [hget _ k hk]
    have h5 := ofFn_set (moved (fun j => δ * ε j) (Equiv.refl _) f) ⟨k, hk⟩ (moved (fun j => δ * ε j) (Equiv.refl _) f ⟨k, hk⟩ + e')
    refine h5.trans (congrArg List.ofFn ?_)
    funext j
    by_cases hj : j = ⟨k, hk⟩
    · subst hj
      unfold moved
      rw [Function.update_self, Equiv.refl_apply, Function.update_self, hee]
      ring
    · unfold moved
      rw [Function.update_of_ne hj, Equiv.refl_apply, Function.update_of_ne hj]

include hm hε hδ hd in
theorem scd_moved (beta mu : ℝ) (hb : 0 < beta) (hmu : 0 ≤ mu) (hdim : 0 < d) (shuffle : Option (Nat → List Nat)) (n : Nat)
    {X X' : DMat ℝ} {y y' : List ℝ} (hD : DataRel d (Moved ε (Equiv.refl _)) (fun a b => b = σ a) (X, y) (X', y'))
    (hy : y.length = X.nrows) {w w' : List ℝ} (hw : Moved (fun j => δ * ε j) (Equiv.refl _) w w') :
    Res.Rel (Moved (fun j => δ * ε j) (Equiv.refl _)) (scd loss beta mu n shuffle X y w) (scd loss beta mu n shuffle X' y' w') := by
  unfold scd
  generalize 0 = iter
  induction n generalizing iter X X' y y' w w' with
  | zero => exact .ok hw
  | succ n ih =>
    unfold scdLoop
    have hlen : ∀ D, shuffleXY shuffle iter X y = .ok D → D.2.length = D.1.nrows := by
      intro D hD'
      cases shuffle with
      | none =>
        simp only [shuffleXY, Res.ok.injEq] at hD'
        subst hD'
        exact hy
      | some p =>
        simp only [shuffleXY, Data.permuteRows] at hD'
        split at hD'
        · rw [Res.bind_ok] at hD'
          split at hD'
          · rw [Res.bind_ok, Res.ok.injEq] at hD'
            subst hD'
            simp only [DMat.nrows, Data.length_scatter]
            exact hy
          · cases hD'
        · cases hD'
    have hrel := shuffleXY_rel shuffle iter hD
    revert hlen hrel
    generalize shuffleXY shuffle iter X y = r₁
    generalize shuffleXY shuffle iter X' y' = r₂
    intro hlen hrel
    cases hrel with
    | throw e => exact .throw e
    | ub => exact .ub
    | diverge => exact .diverge
    | @ok D E hDE =>
      have hDl := hlen D rfl
      obtain ⟨h1, h2, h3, h4⟩ := hDE
      obtain ⟨⟨c1, rows⟩, z⟩ := D
      obtain ⟨⟨c2, rows'⟩, z'⟩ := E
      dsimp only at h1 h2 h3 h4 hDl
      subst h1 h2
      rw [Res.bind_ok, Res.bind_ok]
      exact (scdStep_moved hm hε hδ hd beta mu hb hmu hdim h3 h4 hDl hw).bind fun v v' hv =>
        ih ⟨rfl, rfl, h3, h4⟩ hDl hv (iter + 1)

end Losses

end OpenML.Symmetry
