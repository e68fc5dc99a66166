import Verif.Proof.Pick
import Verif.Props.MCIntegral
import Verif.Props.Normal
import Verif.Props.Densities
import Verif.Props.GMM
import Mathlib.Probability.Distributions.Gaussian.Real
import Mathlib.Probability.Distributions.Exponential
import Mathlib.Probability.Independence.Basic
import Mathlib.Analysis.SpecialFunctions.ContinuousFunctionalCalculus.Rpow.Basic

/-!
Laws of the points returned by `sample`.
-/

set_option linter.unusedSectionVars false
set_option autoImplicit false

namespace Verif

open MeasureTheory Matrix

variable {d : ℕ}

/-- Law of an affine image of a random point with a density. -/
theorem map_affine {A : Matrix (Fin d) (Fin d) ℝ} (hA : A.det ≠ 0) (m : Fin d → ℝ) (g h : (Fin d → ℝ) → ENNReal)
    (hh : Measurable h) (hgh : ∀ z, g z = ENNReal.ofReal |A.det| * h (z ᵥ* A + m)) :
    Measure.map (fun z => z ᵥ* A + m) (volume.withDensity g) = volume.withDensity h := by
  have hAT : Aᵀ.det ≠ 0 := by rwa [det_transpose]
  have hlin : Measurable (toLin' Aᵀ) := (LinearMap.continuous_of_finiteDimensional _).measurable
  have hf : (fun z : Fin d → ℝ => z ᵥ* A + m) = (fun x => x + m) ∘ toLin' Aᵀ := by
    funext z
    simp [toLin'_apply, mulVec_transpose]
  have hfm : Measurable fun z : Fin d → ℝ => z ᵥ* A + m := by
    rw [hf]; exact (measurable_add_const m).comp hlin
  have hmap : Measure.map (fun z : Fin d → ℝ => z ᵥ* A + m) volume = ENNReal.ofReal |A.det|⁻¹ • volume := by
    rw [hf, ← Measure.map_map (measurable_add_const m) hlin, Real.map_matrix_volume_pi_eq_smul_volume_pi hAT,
      Measure.map_smul, map_add_right_eq_self, det_transpose, abs_inv]
  have hpos : 0 < |A.det| := abs_pos.2 hA
  ext S hS
  rw [Measure.map_apply hfm hS, withDensity_apply _ (hfm hS), withDensity_apply _ hS]
  simp_rw [hgh]
  have hc : Measurable fun z : Fin d → ℝ => h (z ᵥ* A + m) := hh.comp hfm
  rw [lintegral_const_mul _ hc, ← setLIntegral_map hS hh hfm, hmap, Measure.restrict_smul,
    lintegral_smul_measure, smul_eq_mul, ← mul_assoc, ← ENNReal.ofReal_mul hpos.le, mul_inv_cancel₀ hpos.ne',
    ENNReal.ofReal_one, one_mul]

/-- A positive definite matrix is determined by its right singular vectors and singular values. -/
theorem svd_symm {cov U V : Matrix (Fin d) (Fin d) ℝ} {s : Fin d → ℝ} (hc : cov.PosDef) (hU : Uᵀ * U = 1)
    (hV : V * Vᵀ = 1) (hs : ∀ i, 0 ≤ s i) (h : cov = U * diagonal s * V) : Vᵀ * diagonal s * V = cov := by
  have hsym : covᵀ = cov := by
    have := hc.isHermitian
    rwa [IsHermitian, conjTranspose_eq_transpose_of_trivial] at this
  have hsq : (Vᵀ * diagonal s * V) * (Vᵀ * diagonal s * V) = cov * cov := by
    have h1 : cov * cov = covᵀ * cov := by rw [hsym]
    rw [h1, h]
    simp only [transpose_mul, diagonal_transpose]
    calc (Vᵀ * diagonal s * V) * (Vᵀ * diagonal s * V) = Vᵀ * diagonal s * (V * Vᵀ) * diagonal s * V := by
          simp only [Matrix.mul_assoc]
      _ = Vᵀ * diagonal s * (Uᵀ * U) * diagonal s * V := by rw [hV, hU]
      _ = _ := by simp only [Matrix.mul_assoc]
  have hpsd : (Vᵀ * diagonal s * V).PosSemidef := by
    have := (PosSemidef.diagonal hs).conjTranspose_mul_mul_same V
    rwa [conjTranspose_eq_transpose_of_trivial] at this
  open scoped MatrixOrder in
  have e1 := CFC.sqrt_unique hsq hpsd.nonneg
  open scoped MatrixOrder in
  have e2 := CFC.sqrt_unique (rfl : cov * cov = cov * cov) hc.posSemidef.nonneg
  rw [← e1, e2]

/-- The density of a vector of independent standard normal numbers. -/
theorem stdNormal_density : (Measure.pi fun _ : Fin d => ProbabilityTheory.gaussianReal 0 1) =
    volume.withDensity fun z => ENNReal.ofReal (Real.exp (-(1/2) * (z ⬝ᵥ z)) / Real.sqrt (2 * Real.pi) ^ d) := by
  apply Measure.pi_eq
  intro s hs
  have hpi := Real.pi_pos
  set f : ℝ → ℝ := fun t => ProbabilityTheory.gaussianPDFReal 0 1 t with hf
  have hfi : Integrable f := ProbabilityTheory.integrable_gaussianPDFReal 0 1
  have hf0 : ∀ t, 0 ≤ f t := fun t => ProbabilityTheory.gaussianPDFReal_nonneg 0 1 t
  have hval : ∀ z : Fin d → ℝ, Real.exp (-(1/2) * (z ⬝ᵥ z)) / Real.sqrt (2 * Real.pi) ^ d = ∏ i, f (z i) := by
    intro z
    simp only [hf, ProbabilityTheory.gaussianPDFReal, Finset.prod_mul_distrib, Finset.prod_const, Finset.card_univ,
      Fintype.card_fin, ← Real.exp_sum, NNReal.coe_one, mul_one, sub_zero, inv_pow]
    rw [div_eq_inv_mul]
    congr 2
    rw [dotProduct, Finset.mul_sum]
    apply Finset.sum_congr rfl
    intro i _
    ring
  have hms : MeasurableSet (Set.univ.pi s) := MeasurableSet.univ_pi hs
  have hone : ∀ i, ProbabilityTheory.gaussianReal 0 1 (s i) = ENNReal.ofReal (∫ t, (s i).indicator f t) := by
    intro i
    rw [ProbabilityTheory.gaussianReal_of_var_ne_zero _ one_ne_zero, withDensity_apply _ (hs i), integral_indicator (hs i),
      ofReal_integral_eq_lintegral_ofReal hfi.integrableOn (Filter.Eventually.of_forall hf0)]
    rfl
  simp_rw [hone, hval]
  rw [withDensity_apply _ hms, ← lintegral_indicator hms, ← ENNReal.ofReal_prod_of_nonneg
    (fun i _ => integral_nonneg fun t => Set.indicator_nonneg (fun t _ => hf0 t) t),
    ← integral_fintype_prod_volume_eq_prod (fun i : Fin d => (s i).indicator f),
    ofReal_integral_eq_lintegral_ofReal]
  · apply lintegral_congr
    intro z
    by_cases hz : z ∈ Set.univ.pi s
    · rw [Set.indicator_of_mem hz]
      congr 1
      apply Finset.prod_congr rfl
      intro i _
      rw [Set.indicator_of_mem (hz i (Set.mem_univ i))]
    · rw [Set.indicator_of_notMem hz]
      simp only [Set.mem_pi, Set.mem_univ, true_imp_iff, not_forall] at hz
      obtain ⟨i, hi⟩ := hz
      rw [Finset.prod_eq_zero (Finset.mem_univ i) (Set.indicator_of_notMem hi f), ENNReal.ofReal_zero]
  · exact Integrable.fintype_prod (f := fun i : Fin d => (s i).indicator f) fun i => hfi.indicator (hs i)
  · exact Filter.Eventually.of_forall fun z => Finset.prod_nonneg fun i _ => Set.indicator_nonneg (fun t _ => hf0 t) _

/-- Law of one row of `np.random.multivariate_normal`. -/
theorem normal_law (m : Fin d → ℝ) (cov : Matrix (Fin d) (Fin d) ℝ) (hc : cov.PosDef) (N : Normal d)
    (hN : Normal.mk' m cov = .ok N) (U V : Matrix (Fin d) (Fin d) ℝ) (s : Fin d → ℝ) (hU : Uᵀ * U = 1) (hV : V * Vᵀ = 1)
    (hs : ∀ i, 0 ≤ s i) (h : cov = U * diagonal s * V) :
    Measure.map (N.sample1 s V) (Measure.pi fun _ : Fin d => ProbabilityTheory.gaussianReal 0 1) =
      volume.withDensity fun x => ENNReal.ofReal (N.prob1 x) := by
  obtain ⟨N', hN', hval, -⟩ := C09_normal_density m cov hc
  rw [hN] at hN'
  cases hN'
  have hloc : N.loc = m := by
    rw [Normal.mk'_eq hc.det_pos] at hN
    cases hN
    rfl
  obtain ⟨A, hA⟩ : ∃ A : Matrix (Fin d) (Fin d) ℝ, A = diagonal (fun i => Real.sqrt (s i)) * V := ⟨_, rfl⟩
  have hAA : Aᵀ * A = cov := by
    rw [← svd_symm hc hU hV hs h, hA]
    simp only [transpose_mul, diagonal_transpose, Matrix.mul_assoc]
    rw [← Matrix.mul_assoc (diagonal _) (diagonal _) V, diagonal_mul_diagonal]
    simp only [Real.mul_self_sqrt (hs _)]
  have hdet : A.det * A.det = cov.det := by rw [← hAA, det_mul, det_transpose]
  have hA0 : A.det ≠ 0 := by
    intro h0
    rw [h0, zero_mul] at hdet
    exact hc.det_pos.ne hdet
  have habs : |A.det| = Real.sqrt cov.det := by rw [← hdet, Real.sqrt_mul_self_eq_abs]
  have hfun : N.sample1 s V = fun z => z ᵥ* A + m := by
    funext z
    rw [Normal.sample1, hloc, hA]
  rw [hfun, stdNormal_density]
  have hcont : Continuous N.prob1 := by
    have : N.prob1 = fun x => Real.exp (-(1/2) * ((x - m) ⬝ᵥ (cov⁻¹ *ᵥ (x - m)))) / Real.sqrt ((2 * Real.pi) ^ d * cov.det) :=
      funext hval
    rw [this]
    fun_prop
  apply map_affine hA0 m
  · exact ENNReal.measurable_ofReal.comp hcont.measurable
  · intro z
    rw [hval, ← ENNReal.ofReal_mul (abs_nonneg _), add_sub_cancel_right]
    congr 1
    have hq : (z ᵥ* A) ⬝ᵥ (cov⁻¹ *ᵥ (z ᵥ* A)) = z ⬝ᵥ z := by
      have hAu : IsUnit A.det := isUnit_iff_ne_zero.2 hA0
      have h1 : cov⁻¹ *ᵥ (z ᵥ* A) = A⁻¹ *ᵥ z := by
        rw [← hAA, Matrix.mul_inv_rev, ← mulVec_transpose, mulVec_mulVec, Matrix.mul_assoc,
          Matrix.nonsing_inv_mul _ (by rwa [det_transpose]), Matrix.mul_one]
      rw [h1, ← dotProduct_mulVec, mulVec_mulVec, Matrix.mul_nonsing_inv _ hAu, one_mulVec]
    have hsp : Real.sqrt ((2 * Real.pi) ^ d) = Real.sqrt (2 * Real.pi) ^ d := by
      rw [Real.sqrt_eq_iff_mul_self_eq (by positivity) (by positivity), ← mul_pow, Real.mul_self_sqrt (by positivity)]
    have hcd : 0 < Real.sqrt cov.det := Real.sqrt_pos.2 hc.det_pos
    rw [hq, habs, Real.sqrt_mul (x := (2 * Real.pi) ^ d) (by positivity) cov.det, hsp]
    field_simp

/-- Law of one row of `np.random.uniform(low, high)`. -/
theorem uniform_law (c : Fin d → ℝ) (rs : List ℝ) (rad : Fin d → ℝ) (hr : RadiusFor rs rad) (hpos : ∀ i, 0 < rad i)
    (U : Uniform ℝ d) (hU : Uniform.mk' c rs = .ok U) :
    Measure.map U.sample1 (uniformDraw d) = volume.withDensity fun x => ENNReal.ofReal (uniformDensity c rad x) := by
  obtain ⟨U', hU', hl, hsc, -⟩ := Uniform.mk'_of_radius c rs rad hr
  rw [hU] at hU'
  cases hU'
  set a : Fin d → ℝ := fun k => c k - rad k with ha
  set b : Fin d → ℝ := fun k => c k + rad k with hb
  have hab : ∀ k, a k < b k := fun k => by simp only [ha, hb]; linarith [hpos k]
  have hsam : U.sample1 = fun u k => npUniform (a k) (b k) (u k) := by
    funext u k
    simp [Uniform.sample1, npUniform, hl, hsc, ha, hb]
  have hsm : Measurable U.sample1 := by
    rw [hsam]
    apply measurable_pi_lambda
    intro k
    show Measurable fun u : Fin d → ℝ => a k + (b k - a k) * u k
    fun_prop
  have hvol : ∀ k, b k - a k = 2 * rad k := fun k => by simp only [ha, hb]; ring
  have hp : 0 < ∏ k, (2 * rad k) := Finset.prod_pos fun k _ => by linarith [hpos k]
  have hmeas : MeasurableSet (Set.univ.pi fun k => Set.Ioc (a k) (b k)) := MeasurableSet.univ_pi fun _ => measurableSet_Ioc
  ext S hS
  have h1 := MCInt.lintegral_box a b hab (S.indicator 1) (measurable_one.indicator hS)
  have h2 : ∫⁻ u, S.indicator 1 (fun k => npUniform (a k) (b k) (u k)) ∂(uniformDraw d) =
      Measure.map U.sample1 (uniformDraw d) S := by
    rw [Measure.map_apply hsm hS, ← lintegral_indicator_one (hsm hS)]
    apply lintegral_congr
    intro u
    rw [hsam]
    rfl
  have hae : MCInt.box a b =ᵐ[volume] Set.univ.pi fun k => Set.Ioc (a k) (b k) :=
    (Measure.univ_pi_Ico_ae_eq_Icc (μ := fun _ => volume)).trans (Measure.univ_pi_Ioc_ae_eq_Icc (μ := fun _ => volume)).symm
  rw [h2, setLIntegral_congr hae, lintegral_indicator_one hS] at h1
  simp_rw [hvol] at h1
  rw [withDensity_apply _ hS]
  have h3 : ∀ x, ENNReal.ofReal (uniformDensity c rad x) =
      (Set.univ.pi fun k => Set.Ioc (a k) (b k)).indicator (fun _ => ENNReal.ofReal (1 / ∏ k, (2 * rad k))) x := by
    intro x
    unfold uniformDensity
    by_cases hx : x ∈ Set.univ.pi fun k => Set.Ioc (a k) (b k)
    · rw [Set.indicator_of_mem hx, Set.indicator_of_mem hx]
    · rw [Set.indicator_of_notMem hx, Set.indicator_of_notMem hx, ENNReal.ofReal_zero]
  simp_rw [h3]
  rw [lintegral_indicator hmeas, lintegral_const, Measure.restrict_restrict hmeas, Measure.restrict_apply_univ]
  rw [Measure.restrict_apply hS, Set.inter_comm] at h1
  rw [← h1, ← mul_assoc, ← ENNReal.ofReal_mul (by positivity), one_div, inv_mul_cancel₀ hp.ne', ENNReal.ofReal_one, one_mul]

/-- Law of one number of `np.random.exponential(scale)`. -/
theorem exponential_law {m : ℝ} (hm : 0 < m) :
    Measure.map (Exponential.sample1 m) (volume.restrict (Set.Ico (0:ℝ) 1)) = ProbabilityTheory.expMeasure (1 / m) := by
  have hr : 0 < 1 / m := one_div_pos.2 hm
  have hmeas : Measurable (Exponential.sample1 m) := by unfold Exponential.sample1; fun_prop
  haveI : IsProbabilityMeasure (volume.restrict (Set.Ico (0:ℝ) 1)) := ⟨by simp⟩
  haveI : IsProbabilityMeasure (Measure.map (Exponential.sample1 m) (volume.restrict (Set.Ico (0:ℝ) 1))) :=
    Measure.isProbabilityMeasure_map hmeas.aemeasurable
  haveI := ProbabilityTheory.isProbabilityMeasure_expMeasure hr
  apply Measure.ext_of_Iic
  intro t
  have hcdf := ProbabilityTheory.cdf_expMeasure_eq hr t
  rw [← ENNReal.ofReal_toReal (measure_ne_top (ProbabilityTheory.expMeasure (1 / m)) (Set.Iic t)), ← measureReal_def,
    ← ProbabilityTheory.cdf_eq_real, hcdf, Measure.map_apply hmeas measurableSet_Iic,
    Measure.restrict_apply (hmeas measurableSet_Iic)]
  have hkey : ∀ u ∈ Set.Ico (0:ℝ) 1, (Exponential.sample1 m u ≤ t ↔ u ≤ 1 - Real.exp (-(1 / m * t))) := by
    intro u hu
    have h1 : 0 < 1 - u := by linarith [hu.2]
    unfold Exponential.sample1
    constructor
    · intro h
      have : -(1 / m * t) ≤ Real.log (1 - u) := by
        rw [one_div, inv_mul_eq_div, neg_le, le_div_iff₀ hm]
        linarith
      have := (Real.le_log_iff_exp_le h1).1 this
      linarith
    · intro h
      have : Real.exp (-(1 / m * t)) ≤ 1 - u := by linarith
      have := (Real.le_log_iff_exp_le h1).2 this
      rw [one_div, inv_mul_eq_div, neg_le, le_div_iff₀ hm] at this
      linarith
  by_cases ht : 0 ≤ t
  · rw [if_pos ht]
    have he : Real.exp (-(1 / m * t)) ≤ 1 := Real.exp_le_one_iff.2 (by have := mul_nonneg hr.le ht; linarith)
    have hpos := Real.exp_pos (-(1 / m * t))
    have hset : Exponential.sample1 m ⁻¹' Set.Iic t ∩ Set.Ico 0 1 = Set.Icc 0 (1 - Real.exp (-(1 / m * t))) := by
      ext u
      constructor
      · rintro ⟨h1, h2⟩
        exact ⟨h2.1, (hkey u h2).1 h1⟩
      · rintro ⟨h1, h2⟩
        have h3 : u ∈ Set.Ico (0:ℝ) 1 := ⟨h1, by linarith⟩
        exact ⟨(hkey u h3).2 h2, h3⟩
    rw [hset, Real.volume_Icc, sub_zero]
  · rw [if_neg ht]
    have hset : Exponential.sample1 m ⁻¹' Set.Iic t ∩ Set.Ico 0 1 = ∅ := by
      ext u
      simp only [Set.mem_inter_iff, Set.mem_empty_iff_false, iff_false, not_and]
      intro h1 h2
      have h3 := (hkey u h2).1 h1
      have : 1 < Real.exp (-(1 / m * t)) := Real.one_lt_exp_iff.2 (by
        have := mul_pos hr (neg_pos.2 (not_le.1 ht)); linarith)
      linarith [h2.1]
    rw [hset]
    simp

end Verif
