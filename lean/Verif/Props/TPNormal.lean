import Verif.Spec.TPNormal
import Verif.Proof.TPMixVisit
import Verif.Proof.TPMixFirst
import Verif.Props.Normal
import Mathlib.MeasureTheory.Measure.Lebesgue.EqHaar

/-!
# Properties of the tree pyramid sampler with the kernel "normal"

C103 weights of the resampling step, C104 the kernel itself.
-/

set_option linter.unusedSectionVars false
set_option autoImplicit false

namespace Verif

open MeasureTheory

variable {d : ℕ}

namespace TPNormal

theorem isoDensity_pos (c : Pt ℝ d) {v : ℝ} (hv : 0 < v) (x : Pt ℝ d) : 0 < isoDensity c v x := by
  unfold isoDensity
  have := Real.pi_pos
  positivity

theorem iso_spec (c : Pt ℝ d) {v : ℝ} (hv : 0 < v) :
    ∃ s, Normal.mk' c (Matrix.diagonal fun _ => v) = .ok s ∧ ∀ x, s.prob1 x = isoDensity c v x := by
  have hdet : (Matrix.diagonal fun _ : Fin d => v).det = v ^ d := by simp [Matrix.det_diagonal]
  refine ⟨_, Normal.mk'_eq (by rw [hdet]; positivity), ?_⟩
  intro x
  have hinv : (Matrix.diagonal fun _ : Fin d => v)⁻¹ = Matrix.diagonal fun _ => v⁻¹ := by
    apply Matrix.inv_eq_right_inv
    rw [Matrix.diagonal_mul_diagonal]
    simp [hv.ne']
  have hpi := Real.pi_pos
  simp only [Normal.prob1, Normal.logProb1, hinv, hdet, Matrix.vecMul_diagonal, dotProduct, isoDensity, Pi.sub_apply]
  have h1 : (Real.sqrt (2 * Real.pi * v))⁻¹ ^ d = Real.exp (-(1/2) * d * Real.log (Real.pi * 2) + -(1/2) * Real.log (v ^ d)) := by
    have hpos : 0 < 2 * Real.pi * v := by positivity
    have h2 : (Real.sqrt (2 * Real.pi * v))⁻¹ = Real.exp (-(1/2) * Real.log (2 * Real.pi * v)) := by
      rw [Real.sqrt_eq_rpow, ← Real.rpow_neg hpos.le, Real.rpow_def_of_pos hpos, mul_comm]
    rw [h2, ← Real.exp_nat_mul, Real.log_pow, Real.log_mul (by positivity) hv.ne', mul_comm 2 Real.pi]
    congr 1
    ring
  rw [h1, ← Real.exp_add]
  congr 2
  rw [neg_div, Finset.sum_div, ← Finset.sum_neg_distrib, Finset.mul_sum]
  apply Finset.sum_congr rfl
  intro i _
  field_simp
  ring

/-- The density of the rescaled prototype. -/
theorem proto_scale (z c : Pt ℝ d) {r : ℝ} (hr : 0 < r) :
    isoDensity 0 (1 / 2) z = isoDensity c (2 * r ^ 2) (reSample z c r) * (2 * r) ^ d := by
  have hpi := Real.pi_pos
  have h1 : (∑ i, (reSample z c r i - c i) ^ 2) = 4 * r ^ 2 * ∑ i, (z i) ^ 2 := by
    rw [Finset.mul_sum]
    apply Finset.sum_congr rfl
    intro i _
    simp only [reSample]
    ring
  have h2 : Real.sqrt (2 * Real.pi * (2 * r ^ 2)) = 2 * r * Real.sqrt (2 * Real.pi * (1 / 2)) := by
    rw [show 2 * Real.pi * (2 * r ^ 2) = (2 * r) ^ 2 * (2 * Real.pi * (1 / 2)) by ring,
      Real.sqrt_mul (by positivity), Real.sqrt_sq (by positivity)]
  unfold isoDensity
  rw [h1, h2, mul_inv, mul_pow]
  have h3 : -(∑ i, (z i - (0 : Pt ℝ d) i) ^ 2) / (2 * (1 / 2)) = -(4 * r ^ 2 * ∑ i, (z i) ^ 2) / (2 * (2 * r ^ 2)) := by
    simp only [Pi.zero_apply, sub_zero]
    field_simp
    ring
  rw [h3]
  have h4 : (2 * r)⁻¹ ^ d * (2 * r) ^ d = 1 := by
    rw [← mul_pow, inv_mul_cancel₀ (by positivity), one_pow]
  calc _ = ((2 * r)⁻¹ ^ d * (2 * r) ^ d) * _ := by rw [h4, one_mul]
    _ = _ := by ring

/-- Law of the resampled points: if the generator draws from the prototype, the point of the leaf with center `c` and
radius `r` has the normal distribution with mean `c` and covariance `2 r^2 I`. -/
theorem reSample_law (c : Pt ℝ d) {r : ℝ} (hr : 0 < r) :
    Measure.map (fun z => reSample z c r) (volume.withDensity fun z => ENNReal.ofReal (isoDensity 0 (1 / 2) z))
      = volume.withDensity fun x => ENNReal.ofReal (isoDensity c (2 * r ^ 2) x) := by
  have h2r : (2 * r) ≠ 0 := by positivity
  have hg : (fun z => reSample z c r) = (fun x => x + c) ∘ fun z => (2 * r) • z := by
    funext z i
    simp [reSample]
    ring
  have hgm : Measurable fun z => reSample z c r := by
    apply measurable_pi_lambda
    intro i
    show Measurable fun z : Pt ℝ d => z i * 2 * r + c i
    fun_prop
  have hmap : Measure.map (fun z => reSample z c r) (volume : Measure (Pt ℝ d))
      = ENNReal.ofReal (((2 * r) ^ d)⁻¹) • volume := by
    rw [hg, ← Measure.map_map (measurable_add_const c) (measurable_const_smul (2 * r)),
      Measure.map_addHaar_smul volume h2r, Measure.map_smul, map_add_right_eq_self]
    congr 2
    rw [Module.finrank_fintype_fun_eq_card, Fintype.card_fin, abs_of_pos (by positivity)]
  have hm : Measurable fun x : Pt ℝ d => ENNReal.ofReal (isoDensity c (2 * r ^ 2) x) := by
    apply ENNReal.measurable_ofReal.comp
    unfold isoDensity
    fun_prop
  ext A hA
  rw [Measure.map_apply hgm hA, withDensity_apply _ (hgm hA), withDensity_apply _ hA]
  have e : ∀ z, ENNReal.ofReal (isoDensity 0 (1 / 2) z)
      = ENNReal.ofReal ((2 * r) ^ d) * ENNReal.ofReal (isoDensity c (2 * r ^ 2) (reSample z c r)) := by
    intro z
    rw [proto_scale z c hr, mul_comm, ENNReal.ofReal_mul (by positivity)]
  simp_rw [e]
  have hc : Measurable fun z => ENNReal.ofReal (isoDensity c (2 * r ^ 2) (reSample z c r)) := hm.comp hgm
  rw [lintegral_const_mul _ hc, ← setLIntegral_map hA hm hgm, hmap, Measure.restrict_smul, lintegral_smul_measure,
    smul_eq_mul, ← mul_assoc, ← ENNReal.ofReal_mul (by positivity), mul_inv_cancel₀ (by positivity), ENNReal.ofReal_one, one_mul]

open TPTree

theorem prototype_spec : ∃ s, prototype d = .ok s ∧ ∀ z, s.prob1 z = isoDensity 0 (1 / 2) z :=
  iso_spec 0 (by norm_num)

theorem resampleArrays_same {T : TPTree ℝ d} (I : WF T) (s : Normal d) (t : Pt ℝ d → XF ℝ) (z : ℕ → Pt ℝ d) :
    Same T (resampleArrays s T t z) := by
  refine ⟨rfl, rfl, rfl, rfl, rfl, ?_, ?_⟩
  · simp [resampleArrays, I.lenMask, I.lenS, I.centers, I.radii]
  · simp [resampleArrays, I.lenMask, I.lenW, I.centers, I.radii]

theorem resampleArrays_leaf {T : TPTree ℝ d} (I : WF T) (s : Normal d) (target : Pt ℝ d → XF ℝ) (z : ℕ → Pt ℝ d) {p : ℕ}
    (hp : p ∈ T.leaves) :
    (resampleArrays s T target z).samples[p]? = some (reSample (z p) (T.box p).1 (T.box p).2) ∧
    (resampleArrays s T target z).weights[p]? =
      some (target (reSample (z p) (T.box p).1 (T.box p).2) / XF.fin (s.prob1 (z p))) := by
  obtain ⟨n, hn, hl⟩ := I.leaf_node hp
  have hpN := I.leaf_lt hp
  have hm := (I.mask_iff p).2 hp
  have hb : T.box p = (n.center, n.radius) := by simp [box, hn]
  obtain ⟨x, hx⟩ : ∃ x, T.samples[p]? = some x := ⟨_, List.getElem?_eq_getElem (by rw [I.lenS]; exact hpN)⟩
  obtain ⟨w, hw⟩ : ∃ w, T.weights[p]? = some w := ⟨_, List.getElem?_eq_getElem (by rw [I.lenW]; exact hpN)⟩
  have hcr : (T.centers.zip T.radii)[p]? = some (n.center, n.radius) := by
    rw [List.getElem?_zip_eq_some, I.centers, I.radii, List.getElem?_map, List.getElem?_map, hn]
    exact ⟨rfl, rfl⟩
  have hz : ((T.centers.zip T.radii).zipIdx.map fun ((c, r), i) => (reSample (z i) c r, s.prob1 (z i)))[p]?
      = some (reSample (z p) n.center n.radius, s.prob1 (z p)) := by
    rw [List.getElem?_map, List.getElem?_zipIdx, hcr]
    simp
  rw [hb]
  have zip3 : ∀ {α β γ : Type _} {l : List α} {m : List β} {k : List γ} {a : α} {b : β} {g : γ}, l[p]? = some a →
      m[p]? = some b → k[p]? = some g → ((l.zip m).zip k)[p]? = some ((a, b), g) := by
    intro α β γ l m k a b g h1 h2 h3
    rw [List.getElem?_zip_eq_some, List.getElem?_zip_eq_some]
    exact ⟨⟨h1, h2⟩, h3⟩
  constructor
  · simp only [resampleArrays, List.getElem?_map]
    rw [zip3 hx hz hm]; rfl
  · simp only [resampleArrays, List.getElem?_map]
    rw [zip3 hw hz hm]; rfl

theorem refreshLeaf_arrays {T T' : TPTree ℝ d} {p : ℕ} (h : T.refreshLeaf p = .ok T') :
    T'.samples = T.samples ∧ T'.weights = T.weights := by
  unfold refreshLeaf at h
  split at h
  · cases h
  · split at h
    · split at h
      · cases h; exact ⟨rfl, rfl⟩
      · cases h
    · cases h

theorem refreshLeaves_arrays : ∀ (l : List ℕ) (T T' : TPTree ℝ d), l.foldlM refreshLeaf T = .ok T' →
    Same T T' ∧ T'.samples = T.samples ∧ T'.weights = T.weights
  | [], T, T', h => by
    simp only [List.foldlM_nil, pure, Except.pure, Except.ok.injEq] at h
    rw [← h]; exact ⟨Same.refl _, rfl, rfl⟩
  | p :: l, T, T', h => by
    simp only [List.foldlM_cons, bind, Except.bind] at h
    cases h1 : T.refreshLeaf p with
    | error => simp [h1] at h
    | ok T1 =>
      rw [h1] at h
      obtain ⟨a, b⟩ := refreshLeaf_arrays h1
      obtain ⟨a0, a', b'⟩ := refreshLeaves_arrays l T1 T' h
      exact ⟨(refreshLeaf_same h1).trans a0, a'.trans a, b'.trans b⟩

/-- What the resampling step leaves in the arrays, for a positive target. -/
theorem resample_result {T T' : TPTree ℝ d} (I : WF T) {R : ℝ} {c : Pt ℝ d} {e : ℕ} (r : Reached c R T e) (hR : 0 < R)
    {target : Pt ℝ d → XF ℝ} {π : Pt ℝ d → ℝ} (hπ0 : ∀ x, 0 < π x) (hπ : ∀ x, target x = XF.fin (π x)) {z : ℕ → Pt ℝ d}
    (h : resample T target z = .ok T') :
    T'.leaves = T.leaves ∧ ∃ C : ℝ, 0 < C ∧
      C = (T.leaves.map fun p => π (reSample (z p) (T.box p).1 (T.box p).2) / isoDensity 0 (1 / 2) (z p)).sum ∧
      ∀ p ∈ T.leaves, T'.samples[p]? = some (reSample (z p) (T.box p).1 (T.box p).2) ∧
      T'.weights[p]? = some (XF.fin (π (reSample (z p) (T.box p).1 (T.box p).2) / isoDensity 0 (1 / 2) (z p) / C)) := by
  obtain ⟨s, hs, hsp⟩ := prototype_spec (d := d)
  unfold resample at h
  simp only [hs, bind, Except.bind] at h
  have sA := resampleArrays_same I s target z
  have IA := sA.inv I
  have sN := selfNormalize_same IA
  obtain ⟨sF, hS, hW⟩ := refreshLeaves_arrays _ _ _ h
  have hAw : ∀ p ∈ (resampleArrays s T target z).leaves, (resampleArrays s T target z).weights[p]? =
      some (XF.fin (π (reSample (z p) (T.box p).1 (T.box p).2) / isoDensity 0 (1 / 2) (z p))) := by
    intro p hp
    rw [sA.leaves] at hp
    rw [(resampleArrays_leaf I s target z hp).2, hπ, hsp, XF.fin_div_ne _ _ (isoDensity_pos _ (by norm_num) _).ne']
  have hne : T.leaves ≠ [] := by
    intro h0
    have := r.nLeaves
    rw [h0, List.length_nil] at this
    omega
  have hpos : 0 < ((resampleArrays s T target z).leaves.map fun p =>
      π (reSample (z p) (T.box p).1 (T.box p).2) / isoDensity 0 (1 / 2) (z p)).sum := by
    apply List.sum_pos
    · intro x hx
      obtain ⟨p, _, rfl⟩ := List.mem_map.1 hx
      exact div_pos (hπ0 _) (isoDensity_pos _ (by norm_num) _)
    · rw [sA.leaves]; simpa using hne
  have hN := selfNormalize_weights IA _ hAw hpos
  refine ⟨by rw [sF.leaves, sN.leaves, sA.leaves], _, hpos, by rw [sA.leaves], ?_⟩
  intro p hp
  refine ⟨?_, ?_⟩
  · rw [hS, ← (resampleArrays_leaf I s target z hp).1]
    unfold selfNormalize
    simp only
    split_ifs <;> rfl
  · rw [hW, hN p (by rw [sA.leaves]; exact hp)]

theorem reached_of_normal {dmin dmax : Pt ℝ d} {T : TPTree ℝ d} (h : Reach dmin dmax T) :
    ∃ (R : ℝ) (c : Pt ℝ d) (e : ℕ), (∃ i, R = (dmax i - dmin i) / 2) ∧ Reached c R T e := by
  induction h with
  | init h =>
    obtain ⟨R, h1, _, r⟩ := reached_init h
    exact ⟨R, _, 0, h1, r⟩
  | expand p ess nMin _ h ih => obtain ⟨R, c, e, h1, r⟩ := ih; exact ⟨R, c, _, h1, r.expand h⟩
  | sample p x _ h ih => obtain ⟨R, c, e, h1, r⟩ := ih; exact ⟨R, c, e, h1, r.same (sampleNode_same h)⟩
  | weigh p t q _ h ih => obtain ⟨R, c, e, h1, r⟩ := ih; exact ⟨R, c, e, h1, r.same (weighNode_same h)⟩
  | normalize _ ih => obtain ⟨R, c, e, h1, r⟩ := ih; exact ⟨R, c, e, h1, r.same (selfNormalize_same r.wf)⟩
  | resample target z _ h ih =>
    obtain ⟨R, c, e, h1, r⟩ := ih
    obtain ⟨s, hs, _⟩ := prototype_spec (d := d)
    unfold resample at h
    simp only [hs, bind, Except.bind] at h
    have sA := resampleArrays_same r.wf s target z
    have IA := sA.inv r.wf
    exact ⟨R, c, e, h1, r.same ((sA.trans (selfNormalize_same IA)).trans (refreshLeaves_arrays _ _ _ h).1)⟩

end TPNormal

open TPNormal TPTree

/-- C103 (code disagrees): "after leaf resampling the weights of the leaves are proportional to the target density over the
density the new samples were drawn from". Kernel "normal", every reachable tree, every positive target and all draws:
the point of a leaf with center `c` and radius `r` has the density of a normal with mean `c` and covariance `2 r^2 I` (first
part), but for two leaves of different radius the weights are not in the right proportion (second part). -/
theorem C103_refuted (hd : 0 < d) (dmin dmax : Pt ℝ d) (hlt : ∀ i, dmin i < dmax i) (T T' : TPTree ℝ d)
    (hT : TPNormal.Reach dmin dmax T) (target : Pt ℝ d → XF ℝ) (π : Pt ℝ d → ℝ) (hπ0 : ∀ x, 0 < π x)
    (hπ : ∀ x, target x = XF.fin (π x)) (z : ℕ → Pt ℝ d) (h : TPNormal.resample T target z = .ok T') :
    (∃ s, TPNormal.prototype d = .ok s ∧ ∀ p ∈ T.leaves,
      Measure.map (fun z => TPNormal.reSample z (T.box p).1 (T.box p).2) (volume.withDensity fun z => ENNReal.ofReal (s.prob1 z))
        = volume.withDensity fun x => ENNReal.ofReal (isoDensity (T.box p).1 (2 * (T.box p).2 ^ 2) x)) ∧
    ∀ p ∈ T.leaves, ∀ q ∈ T.leaves, (T.box p).2 ≠ (T.box q).2 →
      ∃ x y a b, T'.samples[p]? = some x ∧ T'.samples[q]? = some y ∧ T'.weights[p]? = some (XF.fin a) ∧
        T'.weights[q]? = some (XF.fin b) ∧
        a * (π y / isoDensity (T.box q).1 (2 * (T.box q).2 ^ 2) y)
          ≠ b * (π x / isoDensity (T.box p).1 (2 * (T.box p).2 ^ 2) x) := by
  obtain ⟨R, _, _, ⟨i, hi⟩, r⟩ := reached_of_normal hT
  have hR : 0 < R := by rw [hi]; have := hlt i; linarith
  constructor
  · obtain ⟨s, hs, hsp⟩ := prototype_spec (d := d)
    refine ⟨s, hs, fun p hp => ?_⟩
    simp_rw [hsp]
    exact reSample_law _ (r.box_pos hR hp)
  · intro p hp q hq hne
    obtain ⟨_, C, hC, _, hw⟩ := resample_result r.wf r hR hπ0 hπ h
    obtain ⟨p1, p2⟩ := hw p hp
    obtain ⟨q1, q2⟩ := hw q hq
    refine ⟨_, _, _, _, p1, q1, p2, q2, ?_⟩
    have rp := r.box_pos hR hp
    have rq := r.box_pos hR hq
    rw [proto_scale (z p) (T.box p).1 rp, proto_scale (z q) (T.box q).1 rq]
    set x := TPNormal.reSample (z p) (T.box p).1 (T.box p).2
    set y := TPNormal.reSample (z q) (T.box q).1 (T.box q).2
    have dp := isoDensity_pos (T.box p).1 (v := 2 * (T.box p).2 ^ 2) (by positivity) x
    have dq := isoDensity_pos (T.box q).1 (v := 2 * (T.box q).2 ^ 2) (by positivity) y
    have px := hπ0 x
    have py := hπ0 y
    intro heq
    apply hne
    have vp : (0 : ℝ) < (2 * (T.box p).2) ^ d := by positivity
    have vq : (0 : ℝ) < (2 * (T.box q).2) ^ d := by positivity
    have hv : (2 * (T.box q).2) ^ d = (2 * (T.box p).2) ^ d := by
      field_simp at heq
      linarith
    have := (pow_left_inj₀ (by positivity) (by positivity) hd.ne').1 hv
    linarith

/-- C103 (the part that holds): if all leaves have the same radius, the weights after resampling are the quotients of target
density and sampling density divided by their sum. -/
theorem C103_partial (dmin dmax : Pt ℝ d) (hlt : ∀ i, dmin i < dmax i) (T T' : TPTree ℝ d)
    (hT : TPNormal.Reach dmin dmax T) (target : Pt ℝ d → XF ℝ) (π : Pt ℝ d → ℝ) (hπ0 : ∀ x, 0 < π x)
    (hπ : ∀ x, target x = XF.fin (π x)) (z : ℕ → Pt ℝ d) (h : TPNormal.resample T target z = .ok T')
    (ρ : ℝ) (hρ : ∀ p ∈ T.leaves, (T.box p).2 = ρ) :
    ∃ X : ℕ → Pt ℝ d, ∀ p ∈ T.leaves, T'.samples[p]? = some (X p) ∧
      T'.weights[p]? = some (XF.fin (π (X p) / isoDensity (T.box p).1 (2 * ρ ^ 2) (X p) /
        (T.leaves.map fun q => π (X q) / isoDensity (T.box q).1 (2 * ρ ^ 2) (X q)).sum)) := by
  obtain ⟨R, _, _, ⟨i, hi⟩, r⟩ := reached_of_normal hT
  have hR : 0 < R := by rw [hi]; have := hlt i; linarith
  obtain ⟨_, C, hC, hCe, hw⟩ := resample_result r.wf r hR hπ0 hπ h
  refine ⟨fun p => TPNormal.reSample (z p) (T.box p).1 (T.box p).2, fun p hp => ⟨(hw p hp).1, ?_⟩⟩
  have hρ0 : 0 < ρ := by rw [← hρ p hp]; exact r.box_pos hR hp
  have conv : ∀ q ∈ T.leaves, π (TPNormal.reSample (z q) (T.box q).1 (T.box q).2) / isoDensity 0 (1 / 2) (z q)
      = π (TPNormal.reSample (z q) (T.box q).1 (T.box q).2) /
        isoDensity (T.box q).1 (2 * ρ ^ 2) (TPNormal.reSample (z q) (T.box q).1 (T.box q).2) * ((2 * ρ) ^ d)⁻¹ := by
    intro q hq
    have hr := r.box_pos hR hq
    have := isoDensity_pos (T.box q).1 (v := 2 * ρ ^ 2) (by positivity) (TPNormal.reSample (z q) (T.box q).1 (T.box q).2)
    rw [proto_scale (z q) (T.box q).1 hr, hρ q hq] at *
    rw [div_mul_eq_div_div]
    rfl
  have hCe' : C = (T.leaves.map fun q => π (TPNormal.reSample (z q) (T.box q).1 (T.box q).2) /
        isoDensity (T.box q).1 (2 * ρ ^ 2) (TPNormal.reSample (z q) (T.box q).1 (T.box q).2)).sum * ((2 * ρ) ^ d)⁻¹ := by
    rw [hCe, List.map_congr_left conv, List.sum_map_mul_right]
  rw [(hw p hp).2, conv p hp]
  congr 2
  rw [hCe']
  exact mul_div_mul_right _ _ (by positivity)

namespace TPNormal

theorem isoDensity_inj (hd : 0 < d) (c : Pt ℝ d) {v w : ℝ} (hv : 0 < v) (hw : 0 < w)
    (h : isoDensity c v c = isoDensity c w c) : v = w := by
  have hpi := Real.pi_pos
  simp only [isoDensity, sub_self, ne_eq, OfNat.ofNat_ne_zero, not_false_eq_true, zero_pow, Finset.sum_const_zero, neg_zero,
    zero_div, Real.exp_zero, mul_one] at h
  have h1 := (pow_left_inj₀ (by positivity) (by positivity) hd.ne').1 h
  have h2 := inv_injective h1
  have h3 := (Real.sqrt_inj (by positivity) (by positivity)).1 h2
  exact mul_left_cancel₀ (by positivity) h3

theorem isoDensity_cont (c : Pt ℝ d) (v : ℝ) : Continuous fun x => ENNReal.ofReal (isoDensity c v x) := by
  apply ENNReal.continuous_ofReal.comp
  unfold isoDensity
  fun_prop

theorem isoLaw_inj (hd : 0 < d) (c : Pt ℝ d) {v w : ℝ} (hv : 0 < v) (hw : 0 < w)
    (h : (volume.withDensity fun x : Pt ℝ d => ENNReal.ofReal (isoDensity c v x))
      = volume.withDensity fun x => ENNReal.ofReal (isoDensity c w x)) : v = w := by
  have h1 := (withDensity_eq_iff_of_sigmaFinite (isoDensity_cont c v).measurable.aemeasurable
    (isoDensity_cont c w).measurable.aemeasurable).1 h
  have h2 := (Continuous.ae_eq_iff_eq volume (isoDensity_cont c v) (isoDensity_cont c w)).1 h1
  have h3 := congrFun h2 c
  rw [ENNReal.ofReal_eq_ofReal_iff (isoDensity_pos c hv c).le (isoDensity_pos c hw c).le] at h3
  exact isoDensity_inj hd c hv hw h3

end TPNormal

/-- C104 (code disagrees): documented "normal: Normal distribution with mean=node.center and std=node.radius". The sampler of a
node is that distribution only if the radius is 1/4, the component of the reported density only if the radius is 1, and the
resampled points never have it. The sampler of a node and the component reported for it never agree: at the center their
densities differ by the factor `2^d`. -/
theorem C104_refuted (hd : 0 < d) (c : Pt ℝ d) (r : ℝ) (hr : 0 < r) :
    ∃ s m p, nodeSampler c r = .ok s ∧ modelComponent c r = .ok m ∧ prototype d = .ok p ∧
      ((∀ x, s.prob1 x = isoDensity c (r ^ 2) x) ↔ r = 1 / 4) ∧
      ((∀ x, m.prob1 x = isoDensity c (r ^ 2) x) ↔ r = 1) ∧
      Measure.map (fun z => TPNormal.reSample z c r) (volume.withDensity fun z => ENNReal.ofReal (p.prob1 z))
        ≠ (volume.withDensity fun x => ENNReal.ofReal (isoDensity c (r ^ 2) x)) ∧
      s.prob1 c = 2 ^ d * m.prob1 c := by
  obtain ⟨s, hs, hsp⟩ := iso_spec c (v := r / 4) (by positivity)
  obtain ⟨m, hm, hmp⟩ := iso_spec c hr
  obtain ⟨p, hp, hpp⟩ := prototype_spec (d := d)
  refine ⟨s, m, p, hs, hm, hp, ⟨fun h => ?_, fun h x => ?_⟩, ⟨fun h => ?_, fun h x => ?_⟩, fun h => ?_, ?_⟩
  · have := isoDensity_inj hd c (by positivity) (by positivity) ((hsp c).symm.trans (h c))
    field_simp at this
    linarith
  · rw [hsp, h]; norm_num
  · have := isoDensity_inj hd c (by positivity) (by positivity) ((hmp c).symm.trans (h c))
    field_simp at this
    linarith
  · rw [hmp, h]; norm_num
  · simp_rw [hpp] at h
    rw [reSample_law c hr] at h
    have := isoLaw_inj hd c (by positivity) (by positivity) h
    have : 0 < r ^ 2 := by positivity
    linarith
  · rw [hsp, hmp]
    have hpi := Real.pi_pos
    have h2 : Real.sqrt (2 * Real.pi * r) = 2 * Real.sqrt (2 * Real.pi * (r / 4)) := by
      rw [show 2 * Real.pi * r = 2 ^ 2 * (2 * Real.pi * (r / 4)) by ring, Real.sqrt_mul (by positivity),
        Real.sqrt_sq (by positivity)]
    simp only [isoDensity, h2, sub_self, ne_eq, OfNat.ofNat_ne_zero, not_false_eq_true, zero_pow, Finset.sum_const_zero,
      neg_zero, zero_div, Real.exp_zero, mul_one]
    rw [mul_inv, mul_pow, ← mul_assoc, ← mul_pow, mul_inv_cancel₀ two_ne_zero, one_pow, one_mul]

/-- C104 (the part that holds): all three are isotropic normal distributions around the center of the node, with variance
`r/4` (sampler), `r` (reported component) and `2 r^2` (resampled points) in every coordinate. -/
theorem C104_partial (c : Pt ℝ d) (r : ℝ) (hr : 0 < r) :
    ∃ s m p, nodeSampler c r = .ok s ∧ modelComponent c r = .ok m ∧ prototype d = .ok p ∧
      (∀ x, s.prob1 x = ∏ i, ProbabilityTheory.gaussianPDFReal (c i) (r / 4).toNNReal (x i)) ∧
      (∀ x, m.prob1 x = ∏ i, ProbabilityTheory.gaussianPDFReal (c i) r.toNNReal (x i)) ∧
      Measure.map (fun z => TPNormal.reSample z c r) (volume.withDensity fun z => ENNReal.ofReal (p.prob1 z))
        = volume.withDensity fun x =>
            ENNReal.ofReal (∏ i, ProbabilityTheory.gaussianPDFReal (c i) (2 * r ^ 2).toNNReal (x i)) := by
  obtain ⟨s, hs, hsp⟩ := iso_spec c (v := r / 4) (by positivity)
  obtain ⟨m, hm, hmp⟩ := iso_spec c hr
  obtain ⟨p, hp, hpp⟩ := prototype_spec (d := d)
  refine ⟨s, m, p, hs, hm, hp, fun x => ?_, fun x => ?_, ?_⟩
  · rw [hsp, ← isoDensity_eq_prod, Real.coe_toNNReal _ (by positivity)]
  · rw [hmp, ← isoDensity_eq_prod, Real.coe_toNNReal _ hr.le]
  · simp_rw [hpp, ← isoDensity_eq_prod, Real.coe_toNNReal _ (show 0 ≤ 2 * r ^ 2 by positivity)]
    exact reSample_law c hr

namespace TPNormal

/-- A tree that was expanded twice, with one sample in every leaf: radii 1, 1/2 and 1/2 for the box `[0, 4]`. -/
theorem demo_reach : ∃ T : TPTree ℝ 1, Reach ![0] ![4] T ∧ T.leaves = [3, 2, 4] ∧ (∀ p ∈ T.leaves, Held T p) ∧
    (T.box 2).2 = (4 - 0) / 2 / 2 ∧ (T.box 3).2 = (4 - 0) / 2 / 2 / 2 := by
  let t : Pt ℝ 1 → XF ℝ := fun _ => XF.fin 1
  refine ⟨_, .weigh 4 t t (.sample 4 0 (.weigh 3 t t (.sample 3 0 (.weigh 2 t t (.sample 2 0 (.expand 1 none 0
    (.expand 0 none 0 (.init rfl) rfl) rfl) rfl) rfl) rfl) rfl) rfl) rfl, rfl, ?_, rfl, rfl⟩
  intro p hp
  have h3 : p ∈ [3, 2, 4] := hp
  clear hp
  have : p = 3 ∨ p = 2 ∨ p = 4 := by simpa using h3
  rcases this with rfl | rfl | rfl
  · exact ⟨_, [0], [_], rfl, rfl, rfl, rfl, List.cons_ne_nil _ _⟩
  · exact ⟨_, [0], [_], rfl, rfl, rfl, rfl, List.cons_ne_nil _ _⟩
  · exact ⟨_, [0], [_], rfl, rfl, rfl, rfl, List.cons_ne_nil _ _⟩

/-- The resampling step succeeds when all leaves have samples. -/
theorem resample_ok {T : TPTree ℝ d} (I : WF T) (h : ∀ p ∈ T.leaves, Held T p) (target : Pt ℝ d → XF ℝ) (z : ℕ → Pt ℝ d) :
    ∃ T', resample T target z = .ok T' := by
  obtain ⟨s, hs, _⟩ := prototype_spec (d := d)
  have s1 := resampleArrays_same I s target z
  have s2 := selfNormalize_same (s1.inv I)
  have hn : (resampleArrays s T target z).selfNormalize.nodes = T.nodes := by
    unfold selfNormalize
    simp only
    split_ifs <;> rfl
  obtain ⟨T', g, _⟩ := foldlM_refresh_held (resampleArrays s T target z).selfNormalize.leaves _ (s2.inv (s1.inv I)) (by
    intro p hp
    rw [s2.leaves, s1.leaves] at hp
    obtain ⟨n, ch, wh, g1, g⟩ := h p hp
    exact ⟨n, ch, wh, by rw [hn, g1], g⟩)
  exact ⟨T', by unfold resample; simp only [hs, bind, Except.bind]; exact g⟩

end TPNormal

/-- The hypotheses of C103 are met, for every positive target and all draws, with leaves of different radius. -/
example (π : Pt ℝ 1 → ℝ) (z : ℕ → Pt ℝ 1) : ∃ T T' : TPTree ℝ 1, TPNormal.Reach ![0] ![4] T ∧
    TPNormal.resample T (fun x => XF.fin (π x)) z = .ok T' ∧ 2 ∈ T.leaves ∧ 3 ∈ T.leaves ∧ (T.box 2).2 ≠ (T.box 3).2 := by
  obtain ⟨T, h1, h2, h3, h4, h5⟩ := demo_reach
  obtain ⟨_, _, _, _, r⟩ := reached_of_normal h1
  obtain ⟨T', h⟩ := resample_ok r.wf h3 (fun x => XF.fin (π x)) z
  exact ⟨T, T', h1, h, by simp [h2], by simp [h2], by rw [h4, h5]; norm_num⟩

/-- Leaves of equal radius: a root expanded once. -/
example (π : Pt ℝ 1 → ℝ) (z : ℕ → Pt ℝ 1) : ∃ T T' : TPTree ℝ 1, TPNormal.Reach ![0] ![4] T ∧
    TPNormal.resample T (fun x => XF.fin (π x)) z = .ok T' ∧ T.leaves = [1, 2] ∧ ∀ p ∈ T.leaves, (T.box p).2 = 1 := by
  let t : Pt ℝ 1 → XF ℝ := fun _ => XF.fin 1
  have key : ∃ T : TPTree ℝ 1, TPNormal.Reach ![0] ![4] T ∧ T.leaves = [1, 2] ∧ (∀ p ∈ T.leaves, Held T p) ∧
      (T.box 1).2 = (4 - 0) / 2 / 2 ∧ (T.box 2).2 = (4 - 0) / 2 / 2 := by
    refine ⟨_, .weigh 2 t t (.sample 2 0 (.weigh 1 t t (.sample 1 0
      (.expand 0 none 0 (.init rfl) rfl) rfl) rfl) rfl) rfl, rfl, ?_, rfl, rfl⟩
    intro p hp
    have h3 : p ∈ [1, 2] := hp
    clear hp
    have : p = 1 ∨ p = 2 := by simpa using h3
    rcases this with rfl | rfl
    · exact ⟨_, [0], [_], rfl, rfl, rfl, rfl, List.cons_ne_nil _ _⟩
    · exact ⟨_, [0], [_], rfl, rfl, rfl, rfl, List.cons_ne_nil _ _⟩
  obtain ⟨T, h1, h2, h3, h4, h5⟩ := key
  obtain ⟨_, _, _, _, r⟩ := reached_of_normal h1
  obtain ⟨T', h⟩ := resample_ok r.wf h3 (fun x => XF.fin (π x)) z
  refine ⟨T, T', h1, h, h2, ?_⟩
  intro p hp
  rw [h2] at hp
  have : p = 1 ∨ p = 2 := by simpa using hp
  rcases this with rfl | rfl
  · rw [h4]; norm_num
  · rw [h5]; norm_num

/-- C104 at a concrete node. -/
example : ∃ s, nodeSampler (![1, 2] : Pt ℝ 2) 3 = .ok s ∧ ¬ ∀ x, s.prob1 x = isoDensity ![1, 2] (3 ^ 2) x := by
  obtain ⟨s, _, _, h1, _, _, h2, _⟩ := C104_refuted (by norm_num) (![1, 2] : Pt ℝ 2) 3 (by norm_num)
  exact ⟨s, h1, fun h => by have := h2.1 h; norm_num at this⟩

end Verif
