import Verif.Model.AIS
import Verif.Proof.Loop
import Verif.Spec.MHLaw
import Verif.Props.MHInvariant
import Verif.Props.Normal

/-!
# Layered AIS: C95 (invariant distribution of the Metropolis moves) and C96 (support)
-/

set_option linter.unusedSectionVars false
set_option autoImplicit false

namespace Verif
namespace LAIS

open MeasureTheory Set
open MHast (IsDensity tryLaw)

variable {d : ℕ}

/-- The target distribution as the code sees it: the values of its density. -/
def dens (p : (Fin d → ℝ) → ℝ) : (Fin d → ℝ) → XF ℝ := fun x => .fin (p x)

/-- The acceptance test without divisions. -/
theorem test_iff {K : Type*} [Field K] [LinearOrder K] [IsStrictOrderedRing K] {a b u : K} (ha : 0 ≤ a) (hb : 0 ≤ b) :
    XF.ltb (.fin u) (XF.fin b / XF.fin a) = true ↔ u * a < b := by
  rcases ha.eq_or_lt with rfl | ha
  · rw [mul_zero]
    rcases hb.eq_or_lt with rfl | hb
    · simp [XF.fin_div, XF.ltb, XF.infMul]
    · simp [XF.fin_div, XF.ltb, hb, XF.infMul, hb.not_gt]
  · rw [XF.fin_div_ne _ _ ha.ne']
    simp [XF.ltb, lt_div_iff₀ ha]

theorem mhStep_eq {lo hi : Fin d → ℝ} {p : (Fin d → ℝ) → ℝ} (hp : ∀ x, 0 ≤ p x) (z : Fin d → ℝ) (u : ℝ) (x : Fin d → ℝ) :
    mhStep lo hi (dens p) z u x = if u * p x < p (clip lo hi (x + z)) then clip lo hi (x + z) else x := by
  unfold mhStep dens
  simp only
  by_cases h : u * p x < p (clip lo hi (x + z))
  · rw [if_pos h, if_pos ((test_iff (hp _) (hp _)).2 h)]
  · rw [if_neg h, if_neg fun h' => h ((test_iff (hp _) (hp _)).1 h')]

section
variable {lo hi : Fin d → ℝ} {p q : (Fin d → ℝ) → ℝ}

theorem clip_measurable : Measurable fun t : (Fin d → ℝ) × (Fin d → ℝ) => clip lo hi (t.1 + t.2) := by
  unfold clip
  refine measurable_pi_lambda _ fun i => ?_
  simp only [Pi.add_apply]
  fun_prop

/-- The tries accepted at a point of `B`. -/
def accSet (lo hi : Fin d → ℝ) (p : (Fin d → ℝ) → ℝ) (B : Set (Fin d → ℝ)) : Set ((Fin d → ℝ) × (Fin d → ℝ) × ℝ) :=
  {t | t.2.2 * p t.1 < p (clip lo hi (t.1 + t.2.1)) ∧ clip lo hi (t.1 + t.2.1) ∈ B}

theorem accSet_measurable (hp : Measurable p) {B : Set (Fin d → ℝ)} (hB : MeasurableSet B) :
    MeasurableSet (accSet lo hi p B) := by
  have hy : Measurable fun t : (Fin d → ℝ) × (Fin d → ℝ) × ℝ => clip lo hi (t.1 + t.2.1) :=
    clip_measurable.comp (measurable_fst.prodMk (measurable_fst.comp measurable_snd))
  exact (measurableSet_lt ((measurable_snd.comp measurable_snd).mul (hp.comp measurable_fst)) (hp.comp hy)).inter (hy hB)

/-- Probability that a try from `x` is accepted at a point of `B`. -/
noncomputable def acc (lo hi : Fin d → ℝ) (p q : (Fin d → ℝ) → ℝ) (x : Fin d → ℝ) (B : Set (Fin d → ℝ)) : ENNReal :=
  tryLaw q (Prod.mk x ⁻¹' accSet lo hi p B)

theorem test_volume {A C : ℝ} (hA : 0 < A) (hC : 0 ≤ C) :
    ENNReal.ofReal A * (volume.restrict (Ico (0 : ℝ) 1)) {u | u * A < C} = ENNReal.ofReal (min A C) := by
  rw [← MHast.test_volume hA hC]
  congr 1
  rw [Measure.restrict_apply' measurableSet_Ico, Measure.restrict_apply' measurableSet_Ico]
  congr 1
  ext u
  simp only [mem_inter_iff, mem_setOf_eq, mem_Ico]
  tauto

/-- Density of the accepted moves. -/
noncomputable def flow (p q : (Fin d → ℝ) → ℝ) (x y : Fin d → ℝ) : ENNReal :=
  ENNReal.ofReal (q (y - x)) * ENNReal.ofReal (min (p x) (p y))

theorem clip_in {x : Fin d → ℝ} (h : ∀ i, lo i ≤ x i ∧ x i ≤ hi i) : clip lo hi x = x := by
  funext i
  simp only [clip]
  rw [max_eq_left (h i).1, min_eq_left (h i).2]

theorem clip_out {x : Fin d → ℝ} (h : ¬ ∀ i, lo i ≤ x i ∧ x i ≤ hi i) :
    ¬ ∀ i, lo i < clip lo hi x i ∧ clip lo hi x i < hi i := by
  intro h'
  apply h
  intro i
  have hi' := h' i
  simp only [clip] at hi'
  constructor
  · by_contra hc
    rw [max_eq_right (not_le.1 hc).le] at hi'
    exact absurd hi'.1 (not_lt.2 (min_le_left _ _))
  · by_contra hc
    rw [min_eq_right ((not_le.1 hc).le.trans (le_max_left _ _))] at hi'
    exact lt_irrefl _ hi'.2

theorem mass_eq (hp : IsDensity p) (hq : IsDensity q) (hin : ∀ x, 0 < p x → ∀ i, lo i < x i ∧ x i < hi i)
    (x : Fin d → ℝ) {B : Set (Fin d → ℝ)} (hB : MeasurableSet B) :
    ENNReal.ofReal (p x) * acc lo hi p q x B = ∫⁻ y in B, flow p q x y := by
  have hm : MeasurableSet (Prod.mk x ⁻¹' accSet lo hi p B) :=
    measurable_prodMk_left (accSet_measurable hp.meas hB)
  have hz : ∀ y, ¬ (∀ i, lo i < y i ∧ y i < hi i) → p y = 0 := fun y h => by
    by_contra h0
    exact h (hin y (lt_of_le_of_ne (hp.nonneg _) (Ne.symm h0)))
  unfold acc tryLaw
  rw [Measure.prod_apply hm, lintegral_withDensity_eq_lintegral_mul _ hq.meas.ennreal_ofReal
    (measurable_measure_prodMk_left hm), ← lintegral_const_mul' _ _ ENNReal.ofReal_ne_top]
  rw [← lintegral_indicator hB, ← lintegral_add_left_eq_self (μ := volume) (B.indicator fun y => flow p q x y) x]
  refine lintegral_congr fun z => ?_
  have hpre : Prod.mk z ⁻¹' (Prod.mk x ⁻¹' accSet lo hi p B)
      = {u | u * p x < p (clip lo hi (x + z)) ∧ clip lo hi (x + z) ∈ B} := rfl
  simp only [Pi.mul_apply, hpre]
  rcases (hp.nonneg x).eq_or_lt with h0 | h0
  · rw [← h0, ENNReal.ofReal_zero, zero_mul]
    by_cases hy : x + z ∈ B
    · rw [indicator_of_mem hy, flow, ← h0, min_eq_left (hp.nonneg _), ENNReal.ofReal_zero, mul_zero]
    · rw [indicator_of_notMem hy]
  by_cases hbox : ∀ i, lo i ≤ (x + z) i ∧ (x + z) i ≤ hi i
  · rw [clip_in hbox]
    by_cases hy : x + z ∈ B
    · rw [indicator_of_mem hy, flow, add_sub_cancel_left]
      simp only [hy, and_true]
      rw [← test_volume h0 (hp.nonneg _)]
      ring
    · rw [indicator_of_notMem hy]
      simp [hy]
  · have h1 : p (x + z) = 0 := hz _ fun h => hbox fun i => ⟨(h i).1.le, (h i).2.le⟩
    have h2 : p (clip lo hi (x + z)) = 0 := hz _ (clip_out hbox)
    have hf : flow p q x (x + z) = 0 := by
      rw [flow, h1, min_eq_right (hp.nonneg _), ENNReal.ofReal_zero, mul_zero]
    have he : (volume.restrict (Ico (0:ℝ) 1)) {u | u * p x < p (clip lo hi (x + z)) ∧ clip lo hi (x + z) ∈ B} = 0 := by
      rw [Measure.restrict_apply' measurableSet_Ico]
      refine measure_mono_null (t := ∅) ?_ measure_empty
      rintro u ⟨⟨h3, -⟩, h4⟩
      rw [h2] at h3
      exact absurd h3 (not_lt.2 (mul_nonneg h4.1 (hp.nonneg _)))
    rw [he, mul_zero, mul_zero]
    by_cases hy : x + z ∈ B
    · rw [indicator_of_mem hy, hf]
    · rw [indicator_of_notMem hy]

theorem flow_symm (hs : ∀ z, q (-z) = q z) (x y : Fin d → ℝ) : flow p q x y = flow p q y x := by
  unfold flow
  rw [min_comm, ← neg_sub y x, hs]

theorem flow_measurable (hp : IsDensity p) (hq : IsDensity q) :
    Measurable (Function.uncurry fun x y : Fin d → ℝ => flow p q x y) := by
  have h1 := hp.meas
  have h2 := hq.meas
  unfold flow Function.uncurry
  have m1 : Measurable fun a : (Fin d → ℝ) × (Fin d → ℝ) => ENNReal.ofReal (q (a.2 - a.1)) :=
    (h2.comp (measurable_snd.sub measurable_fst)).ennreal_ofReal
  have m2 : Measurable fun a : (Fin d → ℝ) × (Fin d → ℝ) => ENNReal.ofReal (min (p a.1) (p a.2)) :=
    ((h1.comp measurable_fst).min (h1.comp measurable_snd)).ennreal_ofReal
  exact m1.mul m2

theorem balance (hp : IsDensity p) (hq : IsDensity q) (hs : ∀ z, q (-z) = q z)
    (hin : ∀ x, 0 < p x → ∀ i, lo i < x i ∧ x i < hi i) {A B : Set (Fin d → ℝ)} (hA : MeasurableSet A)
    (hB : MeasurableSet B) :
    ∫⁻ x in A, ENNReal.ofReal (p x) * acc lo hi p q x B = ∫⁻ x in B, ENNReal.ofReal (p x) * acc lo hi p q x A := by
  simp only [mass_eq hp hq hin _ hA, mass_eq hp hq hin _ hB]
  rw [lintegral_lintegral_swap (flow_measurable hp hq).aemeasurable]
  simp only [flow_symm hs]

/-- The target distribution. -/
noncomputable def targetLaw (p : (Fin d → ℝ) → ℝ) : Measure (Fin d → ℝ) :=
  volume.withDensity fun x => ENNReal.ofReal (p x)

theorem mhStep_measurable (hp : IsDensity p) :
    Measurable fun t : (Fin d → ℝ) × (Fin d → ℝ) × ℝ => mhStep lo hi (dens p) t.2.1 t.2.2 t.1 := by
  simp only [mhStep_eq hp.nonneg]
  have hy : Measurable fun t : (Fin d → ℝ) × (Fin d → ℝ) × ℝ => clip lo hi (t.1 + t.2.1) :=
    clip_measurable.comp (measurable_fst.prodMk (measurable_fst.comp measurable_snd))
  refine Measurable.ite ?_ hy measurable_fst
  exact measurableSet_lt ((measurable_snd.comp measurable_snd).mul (hp.meas.comp measurable_fst)) (hp.meas.comp hy)

/-- One step: where it goes. -/
theorem step_prob (hp : IsDensity p) (hq : IsDensity q) (x : Fin d → ℝ) {B : Set (Fin d → ℝ)} (hB : MeasurableSet B) :
    tryLaw q {t | mhStep lo hi (dens p) t.1 t.2 x ∈ B}
      = acc lo hi p q x B + B.indicator (fun x => 1 - acc lo hi p q x univ) x := by
  haveI := MHast.lawProb hq
  have hU : MeasurableSet (Prod.mk x ⁻¹' accSet lo hi p univ) :=
    measurable_prodMk_left (accSet_measurable hp.meas MeasurableSet.univ)
  by_cases hx : x ∈ B
  · have e : {t : (Fin d → ℝ) × ℝ | mhStep lo hi (dens p) t.1 t.2 x ∈ B}
        = (Prod.mk x ⁻¹' accSet lo hi p B) ∪ (Prod.mk x ⁻¹' accSet lo hi p univ)ᶜ := by
      ext t
      simp only [mem_setOf_eq, mhStep_eq hp.nonneg, mem_union, mem_compl_iff, mem_preimage, accSet, mem_univ, and_true]
      by_cases h : t.2 * p x < p (clip lo hi (x + t.1))
      · simp [h]
      · simp [h, hx]
    rw [e, measure_union, prob_compl_eq_one_sub hU, indicator_of_mem hx]
    · rfl
    · rw [Set.disjoint_left]
      rintro t h1 h2
      exact h2 ⟨h1.1, mem_univ _⟩
    · exact hU.compl
  · have e : {t : (Fin d → ℝ) × ℝ | mhStep lo hi (dens p) t.1 t.2 x ∈ B} = (Prod.mk x ⁻¹' accSet lo hi p B) := by
      ext t
      simp only [mem_setOf_eq, mhStep_eq hp.nonneg, mem_preimage, accSet]
      by_cases h : t.2 * p x < p (clip lo hi (x + t.1))
      · simp [h]
      · simp [h, hx]
    rw [e, indicator_of_notMem hx, add_zero]
    rfl

theorem acc_le_one (hq : IsDensity q) (x : Fin d → ℝ) (B : Set (Fin d → ℝ)) : acc lo hi p q x B ≤ 1 := by
  haveI := MHast.lawProb hq
  exact prob_le_one

theorem acc_measurable (hp : IsDensity p) (hq : IsDensity q) {B : Set (Fin d → ℝ)} (hB : MeasurableSet B) :
    Measurable fun x => acc lo hi p q x B := by
  haveI := MHast.lawProb hq
  exact measurable_measure_prodMk_left (accSet_measurable hp.meas hB)

theorem targetLaw_prob (hp : IsDensity p) : IsProbabilityMeasure (targetLaw p) :=
  ⟨by rw [targetLaw, withDensity_apply _ MeasurableSet.univ, Measure.restrict_univ, hp.total]⟩

theorem step_preserving (hp : IsDensity p) (hq : IsDensity q) (hs : ∀ z, q (-z) = q z)
    (hin : ∀ x, 0 < p x → ∀ i, lo i < x i ∧ x i < hi i) :
    MeasurePreserving (fun t : (Fin d → ℝ) × (Fin d → ℝ) × ℝ => mhStep lo hi (dens p) t.2.1 t.2.2 t.1)
      ((targetLaw p).prod (tryLaw q)) (targetLaw p) := by
  haveI := MHast.lawProb hq
  haveI := targetLaw_prob hp
  refine ⟨mhStep_measurable hp, ?_⟩
  ext B hB
  have hm := acc_measurable (lo := lo) (hi := hi) hp hq hB
  have hmU := acc_measurable (lo := lo) (hi := hi) hp hq MeasurableSet.univ
  rw [Measure.map_apply (mhStep_measurable hp) hB, Measure.prod_apply (mhStep_measurable hp hB)]
  have e : ∀ x, tryLaw q (Prod.mk x ⁻¹' ((fun t : (Fin d → ℝ) × (Fin d → ℝ) × ℝ =>
      mhStep lo hi (dens p) t.2.1 t.2.2 t.1) ⁻¹' B)) = acc lo hi p q x B + B.indicator (fun x => 1 - acc lo hi p q x univ) x :=
    fun x => step_prob hp hq x hB
  simp only [e]
  have hsum : Measurable fun x => acc lo hi p q x B + B.indicator (fun x => 1 - acc lo hi p q x univ) x :=
    hm.add ((Measurable.sub measurable_const hmU).indicator hB)
  rw [targetLaw, lintegral_withDensity_eq_lintegral_mul _ hp.meas.ennreal_ofReal hsum, withDensity_apply _ hB]
  simp only [Pi.mul_apply, mul_add]
  have hl : Measurable fun x => ENNReal.ofReal (p x) * acc lo hi p q x B := hp.meas.ennreal_ofReal.mul hm
  have hlU : Measurable fun x => ENNReal.ofReal (p x) * acc lo hi p q x univ := hp.meas.ennreal_ofReal.mul hmU
  rw [lintegral_add_left hl]
  have e2 : ∫⁻ x, ENNReal.ofReal (p x) * B.indicator (fun x => 1 - acc lo hi p q x univ) x
      = ∫⁻ x in B, ENNReal.ofReal (p x) * (1 - acc lo hi p q x univ) := by
    rw [← lintegral_indicator hB]
    refine lintegral_congr fun x => ?_
    by_cases hx : x ∈ B
    · rw [indicator_of_mem hx, indicator_of_mem hx]
    · rw [indicator_of_notMem hx, indicator_of_notMem hx, mul_zero]
  have e3 := balance (lo := lo) (hi := hi) hp hq hs hin MeasurableSet.univ hB
  rw [Measure.restrict_univ] at e3
  rw [e2, e3, ← lintegral_add_left hlU]
  refine lintegral_congr fun x => ?_
  rw [← mul_add, add_tsub_cancel_of_le (acc_le_one hq x univ), mul_one]

/-- The random numbers of `L` steps, as `mcmc_mh` consumes them. -/
def moveOf {L : ℕ} (ω : Fin L → (Fin d → ℝ) × ℝ) (l : ℕ) : Fin d → ℝ := if h : l < L then (ω ⟨l, h⟩).1 else 0

/-- The uniform numbers of `L` steps. -/
def alphaOf {L : ℕ} (ω : Fin L → (Fin d → ℝ) × ℝ) (l : ℕ) : ℝ := if h : l < L then (ω ⟨l, h⟩).2 else 0

theorem mcmcMh_succ (target : (Fin d → ℝ) → XF ℝ) {L : ℕ} (ω : Fin (L + 1) → (Fin d → ℝ) × ℝ) (x : Fin d → ℝ) :
    mcmcMh lo hi target (L + 1) (moveOf ω) (alphaOf ω) x =
      mcmcMh lo hi target L (moveOf fun i => ω i.succ) (alphaOf fun i => ω i.succ)
        (mhStep lo hi target (ω 0).1 (ω 0).2 x) := by
  unfold mcmcMh
  rw [List.range_succ_eq_map, List.foldl_cons, List.foldl_map]
  have h0 : moveOf ω 0 = (ω 0).1 := by simp [moveOf]
  have h1 : alphaOf ω 0 = (ω 0).2 := by simp [alphaOf]
  rw [h0, h1]
  congr 1
  funext x l
  congr 1
  · simp only [moveOf, Nat.add_lt_add_iff_right, Nat.succ_eq_add_one]
    rfl
  · simp only [alphaOf, Nat.add_lt_add_iff_right, Nat.succ_eq_add_one]
    rfl

/-- **C95** (partial: targets that vanish on the border of the search space) The `L` Metropolis moves that adapt a
proposal of layered AIS leave the target distribution invariant: started at a point distributed as the target, with
independent offsets of any symmetric density and uniform numbers, they end at a point distributed as the target. -/
theorem C95_partial (hp : IsDensity p) (hq : IsDensity q) (hs : ∀ z, q (-z) = q z)
    (hin : ∀ x, 0 < p x → ∀ i, lo i < x i ∧ x i < hi i) (L : ℕ) :
    MeasurePreserving
      (fun t : (Fin d → ℝ) × (Fin L → (Fin d → ℝ) × ℝ) => mcmcMh lo hi (dens p) L (moveOf t.2) (alphaOf t.2) t.1)
      ((targetLaw p).prod (Measure.pi fun _ : Fin L => tryLaw q)) (targetLaw p) := by
  haveI := MHast.lawProb hq
  haveI := targetLaw_prob hp
  induction L with
  | zero => exact measurePreserving_fst
  | succ L ih =>
    have h1 := (MeasurePreserving.id (targetLaw p)).prod
      (measurePreserving_piFinSuccAbove (fun _ : Fin (L + 1) => tryLaw q) 0)
    have h2 := (measurePreserving_prodAssoc (targetLaw p) (tryLaw q) (Measure.pi fun _ : Fin L => tryLaw q)).symm
    have h3 := (step_preserving (lo := lo) (hi := hi) hp hq hs hin).prod
      (MeasurePreserving.id (Measure.pi fun _ : Fin L => tryLaw q))
    have h4 := ih.comp (h3.comp (h2.comp h1))
    convert h4 using 1
    funext t
    rw [mcmcMh_succ]
    rfl

end

/-! ### A target and an offset density that meet the hypotheses -/

/-- Uniform density over the open box `(a, b)` in one dimension. -/
noncomputable def box1 (a b : ℝ) : (Fin 1 → ℝ) → ℝ := fun x => if a < x 0 ∧ x 0 < b then 1 / (b - a) else 0

theorem box1_density {a b : ℝ} (h : a < b) : IsDensity (box1 a b) := by
  have hm : MeasurableSet {x : Fin 1 → ℝ | a < x 0 ∧ x 0 < b} :=
    (measurableSet_lt measurable_const (measurable_pi_apply 0)).inter
      (measurableSet_lt (measurable_pi_apply 0) measurable_const)
  refine ⟨Measurable.ite hm measurable_const measurable_const, fun x => ?_, ?_⟩
  · unfold box1
    split
    · exact one_div_nonneg.2 (sub_nonneg.2 h.le)
    · exact le_rfl
  · have e : (fun x : Fin 1 → ℝ => ENNReal.ofReal (box1 a b x))
        = {x : Fin 1 → ℝ | a < x 0 ∧ x 0 < b}.indicator fun _ => ENNReal.ofReal (1 / (b - a)) := by
      funext x
      by_cases hx : a < x 0 ∧ x 0 < b
      · rw [indicator_of_mem (by exact hx), box1, if_pos hx]
      · rw [indicator_of_notMem (by exact hx), box1, if_neg hx, ENNReal.ofReal_zero]
    have hv : volume {x : Fin 1 → ℝ | a < x 0 ∧ x 0 < b} = ENNReal.ofReal (b - a) := by
      have : {x : Fin 1 → ℝ | a < x 0 ∧ x 0 < b} = Set.pi univ fun _ => Ioo a b := by
        ext x
        simp
      rw [this, volume_pi_pi]
      simp
    rw [e, lintegral_indicator hm, setLIntegral_const, hv, ← ENNReal.ofReal_mul (one_div_nonneg.2 (sub_nonneg.2 h.le)),
      one_div_mul_cancel (sub_pos.2 h).ne', ENNReal.ofReal_one]

example : IsDensity (box1 (-1) 1) ∧ (∀ z, box1 (-1) 1 (-z) = box1 (-1) 1 z) ∧
    (∀ x, 0 < box1 (-1) 1 x → ∀ i : Fin 1, (fun _ => -1 : Fin 1 → ℝ) i < x i ∧ x i < (fun _ => 1 : Fin 1 → ℝ) i) := by
  refine ⟨box1_density (by norm_num), fun z => ?_, fun x hx i => ?_⟩
  · unfold box1
    have : (-1 < (-z) 0 ∧ (-z) 0 < 1) ↔ (-1 < z 0 ∧ z 0 < 1) := by
      simp only [Pi.neg_apply]
      constructor <;> rintro ⟨h1, h2⟩ <;> constructor <;> linarith
    simp only [this]
  · unfold box1 at hx
    split at hx
    · rename_i h
      rw [Subsingleton.elim i 0]
      exact h
    · exact absurd hx (lt_irrefl _)

/-- Uniform density over `[0,1]`. -/
noncomputable def unit1 : (Fin 1 → ℝ) → ℝ := fun x => if 0 ≤ x 0 ∧ x 0 ≤ 1 then 1 else 0

theorem unit1_set : MeasurableSet {x : Fin 1 → ℝ | 0 ≤ x 0 ∧ x 0 ≤ 1} :=
  (measurableSet_le measurable_const (measurable_pi_apply 0)).inter
    (measurableSet_le (measurable_pi_apply 0) measurable_const)

theorem unit1_law (B : Set (Fin 1 → ℝ)) (hB : MeasurableSet B) :
    targetLaw unit1 B = volume (B ∩ {x : Fin 1 → ℝ | 0 ≤ x 0 ∧ x 0 ≤ 1}) := by
  have e : (fun x : Fin 1 → ℝ => ENNReal.ofReal (unit1 x))
      = {x : Fin 1 → ℝ | 0 ≤ x 0 ∧ x 0 ≤ 1}.indicator fun _ => 1 := by
    funext x
    by_cases hx : 0 ≤ x 0 ∧ x 0 ≤ 1
    · rw [indicator_of_mem (by exact hx), unit1, if_pos hx, ENNReal.ofReal_one]
    · rw [indicator_of_notMem (by exact hx), unit1, if_neg hx, ENNReal.ofReal_zero]
  rw [targetLaw, withDensity_apply _ hB, e, lintegral_indicator unit1_set, setLIntegral_const, one_mul,
    Measure.restrict_apply unit1_set, inter_comm]

theorem unit1_vol : volume {x : Fin 1 → ℝ | 0 ≤ x 0 ∧ x 0 ≤ 1} = 1 := by
  have : {x : Fin 1 → ℝ | 0 ≤ x 0 ∧ x 0 ≤ 1} = Set.pi univ fun _ => Icc 0 1 := by
    ext x
    simp [Pi.le_def]
  rw [this, volume_pi_pi]
  simp

theorem unit1_density : IsDensity unit1 := by
  refine ⟨Measurable.ite unit1_set measurable_const measurable_const, fun x => ?_, ?_⟩
  · unfold unit1
    split
    · exact zero_le_one
    · exact le_rfl
  · have h := unit1_law univ MeasurableSet.univ
    rw [targetLaw, withDensity_apply _ MeasurableSet.univ, Measure.restrict_univ, univ_inter, unit1_vol] at h
    exact h

/-- **C95** (negation) When the target has mass up to the border of the search space the moves do not leave it
invariant, whatever the density of the offsets (as long as it is positive, as a normal density is): for the
uniform target on the search space `[0,1]` the border point 0 is reached with positive probability after a single
move, though the target gives it probability 0. -/
theorem C95_refuted (q : (Fin 1 → ℝ) → ℝ) (hq : IsDensity q) (hpos : ∀ z, 0 < q z) :
    ∃ p : (Fin 1 → ℝ) → ℝ, IsDensity p ∧ (∀ x, 0 < p x ↔ 0 ≤ x 0 ∧ x 0 ≤ 1) ∧ targetLaw p {0} = 0 ∧
      ((targetLaw p).prod (tryLaw q)).map
        (fun t => mcmcMh (fun _ => 0) (fun _ => 1) (dens p) 1 (fun _ => t.2.1) (fun _ => t.2.2) t.1) {0} ≠ 0 := by
  haveI := MHast.lawProb hq
  haveI := targetLaw_prob unit1_density
  refine ⟨unit1, unit1_density, fun x => ?_, ?_, ?_⟩
  · unfold unit1
    split
    · rename_i h
      simp [h]
    · rename_i h
      simp [h]
  · rw [unit1_law _ (measurableSet_singleton _)]
    exact measure_mono_null inter_subset_left (by simp)
  · show ((targetLaw unit1).prod (tryLaw q)).map
        (fun t : (Fin 1 → ℝ) × (Fin 1 → ℝ) × ℝ => mhStep (fun _ => 0) (fun _ => 1) (dens unit1) t.2.1 t.2.2 t.1) {0} ≠ 0
    rw [Measure.map_apply (mhStep_measurable unit1_density) (measurableSet_singleton _)]
    have hsub : {x : Fin 1 → ℝ | 0 ≤ x 0 ∧ x 0 ≤ 1} ×ˢ ({z : Fin 1 → ℝ | z 0 < -1} ×ˢ Ico (0:ℝ) 1) ⊆
        (fun t : (Fin 1 → ℝ) × (Fin 1 → ℝ) × ℝ => mhStep (fun _ => 0) (fun _ => 1) (dens unit1) t.2.1 t.2.2 t.1) ⁻¹' {0} := by
      rintro ⟨x, z, u⟩ ⟨hx, hz, hu⟩
      simp only [mem_setOf_eq] at hx hz
      have hc : clip (fun _ => 0) (fun _ => 1) (x + z) = (0 : Fin 1 → ℝ) := by
        funext i
        rw [Subsingleton.elim i 0]
        simp only [clip, Pi.add_apply, Pi.zero_apply]
        rw [max_eq_right (by linarith), min_eq_left zero_le_one]
      rw [mem_preimage, mhStep_eq unit1_density.nonneg]
      simp only
      rw [hc, if_pos]
      · rfl
      · have h1 : unit1 x = 1 := if_pos hx
        have h2 : unit1 0 = 1 := if_pos ⟨le_rfl, zero_le_one⟩
        rw [h1, h2, mul_one]
        exact hu.2
    intro h0
    have h1 := measure_mono_null hsub h0
    rw [Measure.prod_prod, unit1_law _ unit1_set, inter_self, unit1_vol, one_mul] at h1
    unfold tryLaw at h1
    rw [Measure.prod_prod, Measure.restrict_apply_self, Real.volume_Ico, sub_zero, ENNReal.ofReal_one, mul_one] at h1
    rw [withDensity_apply_eq_zero hq.meas.ennreal_ofReal] at h1
    have h2 : {x : Fin 1 → ℝ | ENNReal.ofReal (q x) ≠ 0} ∩ {z | z 0 < -1} = {z | z 0 < -1} := by
      ext z
      simp [hpos z]
    rw [h2] at h1
    have ho : IsOpen {z : Fin 1 → ℝ | z 0 < -1} := isOpen_lt (continuous_apply 0) continuous_const
    exact (ho.measure_pos volume ⟨fun _ => -2, by simp⟩).ne' h1

/-- The offsets layered AIS draws (a centred normal with covariance `diag(mh_sigma)`) meet the hypotheses of
`C95_partial` and `C95_refuted`. -/
theorem normal_offsets (σ : ℝ) (hσ : 0 < σ) :
    ∃ s, Normal.mk' (0 : Fin d → ℝ) (Matrix.diagonal fun _ => σ) = .ok s ∧ IsDensity s.prob1 ∧
      (∀ z, 0 < s.prob1 z) ∧ ∀ z, s.prob1 (-z) = s.prob1 z := by
  obtain ⟨s, h1, -, h3, h4, -, h5, h6⟩ := C09_normal_density (0 : Fin d → ℝ) (Matrix.diagonal fun _ => σ)
    (Matrix.PosDef.diagonal fun _ => hσ)
  refine ⟨s, h1, ⟨?_, fun x => (h3 x).1.le, ?_⟩, fun z => (h3 z).1, fun z => ?_⟩
  · have : Continuous s.prob1 := by
      unfold Normal.prob1 Normal.logProb1
      simp only [dotProduct, Matrix.vecMul, Pi.sub_apply]
      fun_prop
    exact this.measurable
  · rw [← ofReal_integral_eq_lintegral_ofReal h5 (Filter.Eventually.of_forall fun x => (h3 x).1.le), h6,
      ENNReal.ofReal_one]
  · have := h4 z
    rw [zero_add, zero_sub] at this
    exact this.symm

/-! ### C96 -/

section
variable {K : Type*} [Field K] [LinearOrder K] [IsStrictOrderedRing K] {lo hi : Fin d → K} {p : (Fin d → K) → K}

theorem mhStep_pos (hp : ∀ x, 0 ≤ p x) (z : Fin d → K) {u : K} (hu : 0 ≤ u) {x : Fin d → K} (hx : 0 < p x) :
    0 < p (mhStep lo hi (fun x => .fin (p x)) z u x) := by
  unfold mhStep
  simp only
  split
  · rename_i h
    exact lt_of_le_of_lt (mul_nonneg hu (hp x)) ((test_iff (hp x) (hp _)).1 h)
  · exact hx

theorem mcmcMh_pos (hp : ∀ x, 0 ≤ p x) (L : ℕ) (move : ℕ → Fin d → K) (alpha : ℕ → K) (ha : ∀ l, 0 ≤ alpha l)
    {x : Fin d → K} (hx : 0 < p x) : 0 < p (mcmcMh lo hi (fun x => .fin (p x)) L move alpha x) := by
  unfold mcmcMh
  induction L with
  | zero => exact hx
  | succ L ih =>
    rw [List.range_succ, List.foldl_append]
    exact mhStep_pos hp _ (ha L) ih

/-- **C96** Adaptation never takes a proposal of layered AIS out of the support of the target: a proposal centred at a
point of positive target density is, at every moment of every call of `importance_sample`, still centred at such a point.
A move to a point that is at least as likely is always made. (`alpha` are the numbers of `np.random.rand`.) -/
theorem C96_support (hp : ∀ x, 0 ≤ p x) (N k L n : ℕ) (q : (Fin d → K) → (Fin d → K) → XF K) (expired : Bool)
    (script : List (Iter K d)) (ha : ∀ it ∈ script, ∀ i l, 0 ≤ it.alpha i l ∧ it.alpha i l < 1) (S : AIS K d) :
    (∃ hl : (importanceSample N k L lo hi q (fun x => .fin (p x)) n expired script S).state.centers.length
          = S.centers.length,
      ∀ i (hi' : i < S.centers.length), 0 < p S.centers[i] →
        0 < p ((importanceSample N k L lo hi q (fun x => .fin (p x)) n expired script S).state.centers[i]'(hl ▸ hi'))) ∧
    ∀ it ∈ script, ∀ i l x, 0 < p x → p x ≤ p (clip lo hi (x + it.move i l)) →
      mhStep lo hi (fun x => .fin (p x)) (it.move i l) (it.alpha i l) x = clip lo hi (x + it.move i l) := by
  constructor
  · have key := whileScript_inv_mem (cond := fun S : AIS K d => decide (S.samples.length < n)) (late := Iter.late)
      (body := body N k L lo hi q fun x => .fin (p x))
      (fun T => ∃ hl : T.centers.length = S.centers.length,
        ∀ i (hi' : i < S.centers.length), 0 < p S.centers[i] → 0 < p (T.centers[i]'(hl ▸ hi'))) script ?_ expired S
      ⟨rfl, fun _ _ h => h⟩
    · exact key
    · rintro it hit T ⟨hl, hT⟩ -
      unfold body
      simp only
      split
      · exact ⟨hl, hT⟩
      · refine ⟨by simp [resample, hl], fun i hi' hpos => ?_⟩
        simp only [resample, List.getElem_mapIdx]
        exact mcmcMh_pos hp L _ _ (fun l => (ha it hit i l).1) (hT i hi' hpos)
  · intro it hit i l x hx hle
    unfold mhStep
    simp only
    rw [if_pos]
    rw [test_iff hx.le (hp _)]
    calc it.alpha i l * p x < 1 * p x := mul_lt_mul_of_pos_right (ha it hit i l).2 hx
      _ ≤ _ := by rw [one_mul]; exact hle

/-- A proposal at a point of density 1 refuses a move to density 0 and makes a move to density 2. -/
example : mhStep (fun _ : Fin 1 => (0:ℚ)) (fun _ => 10) (fun x => .fin (if x 0 = 5 then 0 else if x 0 = 7 then 2 else 1))
      (fun _ => 1) 0 (fun _ => 4) = (fun _ => 4) ∧
    mhStep (fun _ : Fin 1 => (0:ℚ)) (fun _ => 10) (fun x => .fin (if x 0 = 5 then 0 else if x 0 = 7 then 2 else 1))
      (fun _ => 3) (9/10) (fun _ => 4) = (fun _ => 7) := by
  constructor <;> decide +kernel

end

end LAIS
end Verif
