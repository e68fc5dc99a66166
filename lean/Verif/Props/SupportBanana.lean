import Verif.Props.Support
import Mathlib.MeasureTheory.Integral.Prod

/-!
# Property C124 for the banana density
-/

set_option linter.unusedSectionVars false
set_option autoImplicit false

namespace Verif

open MeasureTheory ProbabilityTheory

/-- Shift of the second coordinate. -/
noncomputable def bananaShift (x : ℝ) : ℝ := 3/100 * (x ^ 2 - 100)

theorem banana_factor : ∃ C : ℝ, 0 < C ∧ ∀ x y, bananaDensity x y =
    C * (gaussianPDFReal 0 (100/3) x * gaussianPDFReal 0 1 (y + bananaShift x)) := by
  refine ⟨Real.sqrt (2 * Real.pi * (100/3)) * Real.sqrt (2 * Real.pi), by positivity, fun x y => ?_⟩
  have h1 : Real.sqrt (2 * Real.pi * (100/3)) ≠ 0 := by positivity
  have h2 : Real.sqrt (2 * Real.pi) ≠ 0 := by positivity
  simp only [gaussianPDFReal, bananaDensity, bananaShift, NNReal.coe_one, mul_one, sub_zero]
  push_cast
  have : Real.exp (-(3 / 100 * x ^ 2 + (y + 3 / 100 * (x ^ 2 - 100)) ^ 2) / 2) =
      Real.exp (-x ^ 2 / (2 * (100/3))) * Real.exp (-(y + 3 / 100 * (x ^ 2 - 100)) ^ 2 / 2) := by
    rw [← Real.exp_add]; congr 1; ring
  rw [this]
  field_simp

/-- Mass of an interval under a normal law of mean zero (Chebyshev). -/
theorem gaussian_interval (v : NNReal) (hv : v ≠ 0) (c : ℝ) (hc : 0 < c) :
    1 - v / c ^ 2 ≤ ∫ t in Set.Icc (-c) c, gaussianPDFReal 0 v t := by
  have hreal : ∫ t in Set.Icc (-c) c, gaussianPDFReal 0 v t = (gaussianReal 0 v).real (Set.Icc (-c) c) := by
    rw [Measure.real, gaussianReal_apply_eq_integral _ hv, ENNReal.toReal_ofReal]
    exact setIntegral_nonneg measurableSet_Icc fun t _ => gaussianPDFReal_nonneg _ _ _
  rw [hreal]
  have hch := meas_ge_le_variance_div_sq (μ := gaussianReal 0 v) (X := id) (memLp_id_gaussianReal 2) hc
  rw [variance_id_gaussianReal] at hch
  have hsub : (Set.Icc (-c) c)ᶜ ⊆ {t : ℝ | c ≤ |id t - ∫ x, id x ∂(gaussianReal 0 v)|} := by
    intro t ht
    have : ∫ x, x ∂(gaussianReal 0 v) = 0 := by simpa using integral_id_gaussianReal (μ := 0) (v := v)
    simp only [Set.mem_setOf_eq, id]
    rw [this, sub_zero]
    by_contra h
    push Not at h
    exact ht ⟨(abs_lt.1 h).1.le, (abs_lt.1 h).2.le⟩
  have h1 : (gaussianReal 0 v).real (Set.Icc (-c) c)ᶜ ≤ v / c ^ 2 := by
    rw [Measure.real]
    refine ENNReal.toReal_le_of_le_ofReal (by positivity) ((measure_mono hsub).trans hch)
  rw [probReal_compl_eq_one_sub measurableSet_Icc] at h1
  linarith

/-- **C124** (banana) The support of the banana density holds more than half of its mass (the density is not normalised). -/
theorem C124_partial_banana :
    ∃ g : (Fin 2 → ℝ) → ℝ, (∀ rows, Banana.prob (.mat 2 rows) = .ok (rows.map g)) ∧
      HoldsMost g Banana.support.1 Banana.support.2 := by
  obtain ⟨C, hC, hfac⟩ := banana_factor
  refine ⟨fun r => bananaDensity (r 0) (r 1), fun rows => (C12_partial.2.2.1 rows).1, ?_⟩
  set G : ℝ × ℝ → ℝ := fun p => gaussianPDFReal 0 (100/3) p.1 * gaussianPDFReal 0 1 (p.2 + bananaShift p.1) with hG
  have hG0 : ∀ p, 0 ≤ G p := fun p => mul_nonneg (gaussianPDFReal_nonneg _ _ _) (gaussianPDFReal_nonneg _ _ _)
  have hmp := volume_preserving_finTwoArrow ℝ
  have hmeas : Measurable G := by
    refine ((measurable_gaussianPDFReal _ _).comp measurable_fst).mul ((measurable_gaussianPDFReal _ _).comp ?_)
    unfold bananaShift
    fun_prop
  have hv : (100/3 : NNReal) ≠ 0 := by norm_num
  have hinner : ∀ x, ∫ y, gaussianPDFReal 0 1 (y + bananaShift x) = 1 := by
    intro x
    rw [integral_add_right_eq_self (μ := volume) (fun y => gaussianPDFReal 0 1 y)]
    exact integral_gaussianPDFReal_eq_one 0 one_ne_zero
  have hinnerI : ∀ x, Integrable fun y => gaussianPDFReal 0 1 (y + bananaShift x) :=
    fun x => (integrable_gaussianPDFReal 0 1).comp_add_right _
  have hGi : Integrable G (volume.prod volume) := by
    rw [integrable_prod_iff hmeas.aestronglyMeasurable]
    refine ⟨Filter.Eventually.of_forall fun x => (hinnerI x).const_mul (gaussianPDFReal 0 (100/3) x), ?_⟩
    refine (integrable_gaussianPDFReal 0 (100/3)).congr (Filter.Eventually.of_forall fun x => ?_)
    simp only [Real.norm_of_nonneg (hG0 _)]
    rw [hG]
    simp only
    rw [integral_const_mul, hinner, mul_one]
  have hGint : ∫ p, G p ∂(volume.prod volume) = 1 := by
    rw [integral_prod _ hGi]
    simp only [hG]
    simp_rw [integral_const_mul, hinner, mul_one]
    exact integral_gaussianPDFReal_eq_one 0 hv
  have hg : (fun r : Fin 2 → ℝ => bananaDensity (r 0) (r 1)) = fun r => C * G (MeasurableEquiv.finTwoArrow r) := by
    funext r
    rw [hfac]
    rfl
  have hgI : Integrable fun r : Fin 2 → ℝ => C * G (MeasurableEquiv.finTwoArrow r) := by
    refine Integrable.const_mul ?_ C
    exact (hmp.integrable_comp_emb MeasurableEquiv.finTwoArrow.measurableEmbedding).2 hGi
  have htot : ∫ r : Fin 2 → ℝ, C * G (MeasurableEquiv.finTwoArrow r) = C := by
    rw [integral_const_mul, hmp.integral_comp MeasurableEquiv.finTwoArrow.measurableEmbedding G]
    have : ∫ y, G y = 1 := hGint
    rw [this, mul_one]
  have hbox : boxMass (fun r : Fin 2 → ℝ => C * G (MeasurableEquiv.finTwoArrow r)) Banana.support.1 Banana.support.2 =
      C * ∫ p in Set.Icc (-10:ℝ) 10 ×ˢ Set.Icc (-10:ℝ) 10, G p ∂(volume.prod volume) := by
    rw [boxMass, integral_const_mul]
    have hpre : Set.Icc Banana.support.1 Banana.support.2 =
        MeasurableEquiv.finTwoArrow ⁻¹' (Set.Icc (-10:ℝ) 10 ×ˢ Set.Icc (-10:ℝ) 10) := by
      ext r
      simp only [Banana.support, Set.mem_Icc, Pi.le_def, Set.mem_preimage, Set.mem_prod, Fin.forall_fin_two,
        MeasurableEquiv.finTwoArrow, MeasurableEquiv.coe_mk, piFinTwoEquiv]
      tauto
    rw [hpre, hmp.setIntegral_preimage_emb MeasurableEquiv.finTwoArrow.measurableEmbedding]
    rfl
  rw [hg]
  refine ⟨hgI, ?_⟩
  rw [htot, hbox, setIntegral_prod _ hGi.integrableOn]
  have hin : ∀ x ∈ Set.Icc (-10:ℝ) 10, gaussianPDFReal 0 (100/3) x * (48/49) ≤ ∫ y in Set.Icc (-10:ℝ) 10, G (x, y) := by
    intro x hx
    simp only [hG]
    rw [integral_const_mul]
    refine mul_le_mul_of_nonneg_left ?_ (gaussianPDFReal_nonneg _ _ _)
    have hs1 : bananaShift x ≤ 0 := by unfold bananaShift; nlinarith [hx.1, hx.2]
    have hs2 : -3 ≤ bananaShift x := by unfold bananaShift; nlinarith [sq_nonneg x]
    have h7 := gaussian_interval 1 one_ne_zero 7 (by norm_num)
    have e1 : ∫ y in Set.Icc (-10:ℝ) 10, gaussianPDFReal 0 1 (y + bananaShift x) =
        ∫ y in Set.Icc (-10 + bananaShift x) (10 + bananaShift x), gaussianPDFReal 0 1 y := by
      rw [integral_Icc_eq_integral_Ioc, integral_Icc_eq_integral_Ioc, ← intervalIntegral.integral_of_le (by norm_num),
        ← intervalIntegral.integral_of_le (by linarith), intervalIntegral.integral_comp_add_right (fun y => gaussianPDFReal 0 1 y)]
    rw [e1]
    have hmono : ∫ t in Set.Icc (-7:ℝ) 7, gaussianPDFReal 0 1 t ≤
        ∫ y in Set.Icc (-10 + bananaShift x) (10 + bananaShift x), gaussianPDFReal 0 1 y := by
      refine setIntegral_mono_set (integrable_gaussianPDFReal 0 1).integrableOn
        (Filter.Eventually.of_forall fun t => gaussianPDFReal_nonneg _ _ _) (Filter.Eventually.of_forall ?_)
      exact Set.Icc_subset_Icc (by linarith) (by linarith)
    refine le_trans ?_ (h7.trans hmono)
    norm_num
  have hx : ∫ x in Set.Icc (-10:ℝ) 10, gaussianPDFReal 0 (100/3) x * (48/49) ≤
      ∫ x in Set.Icc (-10:ℝ) 10, ∫ y in Set.Icc (-10:ℝ) 10, G (x, y) := by
    refine setIntegral_mono_on ((integrable_gaussianPDFReal _ _).mul_const _).integrableOn ?_ measurableSet_Icc hin
    have h2 : Integrable G ((volume.restrict (Set.Icc (-10:ℝ) 10)).prod (volume.restrict (Set.Icc (-10:ℝ) 10))) := by
      rw [Measure.prod_restrict]
      exact hGi.integrableOn
    exact h2.integral_prod_left
  have h10 := gaussian_interval (100/3) hv 10 (by norm_num)
  rw [integral_mul_const] at hx
  push_cast at h10
  have : (1:ℝ)/2 < ∫ x in Set.Icc (-10:ℝ) 10, ∫ y in Set.Icc (-10:ℝ) 10, G (x, y) := by
    refine lt_of_lt_of_le ?_ hx
    norm_num at h10 ⊢
    linarith
  nlinarith

end Verif
