import Verif.Model.Support
import Verif.Spec.Support
import Verif.Spec.Sample
import Verif.Proof.SampleLaw
import Mathlib.Probability.Moments.SubGaussian
import Mathlib.Analysis.Matrix.Spectrum
import Mathlib.Analysis.Complex.ExponentialBounds

/-!
Tails of the normal distribution in every dimension.
-/

set_option linter.unusedSectionVars false
set_option autoImplicit false

namespace Verif

open MeasureTheory Matrix ProbabilityTheory

variable {d : ℕ}

/-- Every positive definite matrix has a singular value decomposition. -/
theorem exists_svd {cov : Matrix (Fin d) (Fin d) ℝ} (hc : cov.PosDef) : ∃ u s v, IsSVD cov u s v := by
  have hH := hc.isHermitian
  refine ⟨hH.eigenvectorUnitary, hH.eigenvalues, star (hH.eigenvectorUnitary : Matrix (Fin d) (Fin d) ℝ), ?_, ?_, ?_, ?_⟩
  · have := (Unitary.mem_iff.1 hH.eigenvectorUnitary.2).1
    rwa [star_eq_conjTranspose, conjTranspose_eq_transpose_of_trivial] at this
  · have := (Unitary.mem_iff.1 hH.eigenvectorUnitary.2).1
    rw [star_eq_conjTranspose, conjTranspose_eq_transpose_of_trivial] at this ⊢
    rwa [transpose_transpose]
  · exact hc.posSemidef.eigenvalues_nonneg
  · have := hH.spectral_theorem
    rw [Unitary.conjStarAlgAut_apply] at this
    exact this

/-- A standard normal number is sub-Gaussian. -/
theorem subgaussian_scaled (a : ℝ) : HasSubgaussianMGF (fun t : ℝ => a * t) (NNReal.mk (a ^ 2) (sq_nonneg a)) (gaussianReal 0 1) := by
  have h : HasSubgaussianMGF (fun t : ℝ => t) 1 (gaussianReal 0 1) := by
    refine ⟨fun t => integrable_exp_mul_gaussianReal t, fun t => ?_⟩
    rw [mgf_fun_id_gaussianReal]
    simp
  have := h.const_mul a
  convert this using 1
  exact (mul_one (NNReal.mk (a ^ 2) (sq_nonneg a))).symm

/-- A linear combination of independent standard normal numbers exceeds six standard deviations with probability at most
`exp (-18)`. -/
theorem linear_tail (a : Fin d → ℝ) (hs : 0 < ∑ j, a j ^ 2) :
    (Measure.pi fun _ : Fin d => gaussianReal 0 1).real {z | Real.sqrt (∑ j, a j ^ 2) * 6 ≤ ∑ j, a j * z j} ≤
      Real.exp (-18) := by
  have hind : iIndepFun (fun (j : Fin d) (z : Fin d → ℝ) => a j * z j) (Measure.pi fun _ : Fin d => gaussianReal 0 1) :=
    iIndepFun_pi (μ := fun _ : Fin d => gaussianReal 0 1) (X := fun j t => a j * t) fun j => by fun_prop
  have hsub : ∀ j ∈ Finset.univ, HasSubgaussianMGF (fun z : Fin d → ℝ => a j * z j) (NNReal.mk (a j ^ 2) (sq_nonneg (a j)))
      (Measure.pi fun _ : Fin d => gaussianReal 0 1) := by
    intro j _
    have h1 := (subgaussian_scaled (a j))
    have hm := (measurePreserving_eval (fun _ : Fin d => gaussianReal 0 1) j).map_eq
    rw [← hm] at h1
    exact HasSubgaussianMGF.of_map (measurable_pi_apply j).aemeasurable h1
  have := HasSubgaussianMGF.measure_sum_ge_le_of_iIndepFun hind hsub (ε := Real.sqrt (∑ j, a j ^ 2) * 6) (by positivity)
  refine this.trans (le_of_eq ?_)
  congr 1
  rw [mul_pow, Real.sq_sqrt hs.le]
  have : ((∑ j, NNReal.mk (a j ^ 2) (sq_nonneg (a j)) : NNReal) : ℝ) = ∑ j, a j ^ 2 := by
    rw [NNReal.coe_sum]; rfl
  rw [this]
  field_simp
  norm_num

theorem isProbabilityMeasure_withDensity_ofReal {f : (Fin d → ℝ) → ℝ} (h0 : ∀ x, 0 ≤ f x) (hi : Integrable f)
    (h1 : ∫ x, f x = 1) : IsProbabilityMeasure (volume.withDensity fun x => ENNReal.ofReal (f x)) := by
  constructor
  rw [withDensity_apply _ MeasurableSet.univ, Measure.restrict_univ, ← ofReal_integral_eq_lintegral_ofReal hi
    (Filter.Eventually.of_forall h0), h1, ENNReal.ofReal_one]

/-- The mass of a box is its measure under the law with the density. -/
theorem boxMass_eq_real {f : (Fin d → ℝ) → ℝ} (h0 : ∀ x, 0 ≤ f x) (hi : Integrable f) (lo hi' : Fin d → ℝ) :
    boxMass f lo hi' = (volume.withDensity fun x => ENNReal.ofReal (f x)).real (Set.Icc lo hi') := by
  rw [boxMass, Measure.real, withDensity_apply _ measurableSet_Icc, integral_eq_lintegral_of_nonneg_ae
    (Filter.Eventually.of_forall h0) hi.aestronglyMeasurable.restrict]

/-- The box of six standard deviations around the mean of a normal distribution holds all but `2 d exp (-18)` of the mass,
whatever the correlations. -/
theorem normal_boxMass (m : Fin d → ℝ) (cov : Matrix (Fin d) (Fin d) ℝ) (hc : cov.PosDef) (N : Normal d)
    (hN : Normal.mk' m cov = .ok N) :
    1 - 2 * d * Real.exp (-18) ≤
      boxMass N.prob1 (fun i => m i - Real.sqrt (cov i i) * 6) (fun i => m i + Real.sqrt (cov i i) * 6) := by
  obtain ⟨N', hN', hval, hpos, -, -, hint, hone⟩ := C09_normal_density m cov hc
  rw [hN] at hN'
  cases hN'
  have h0 : ∀ x, 0 ≤ N.prob1 x := fun x => (hpos x).1.le
  obtain ⟨U, s, V, h⟩ := exists_svd hc
  have hlaw := normal_law m cov hc N hN U V s h.left h.right h.nonneg h.eq
  rw [boxMass_eq_real h0 hint]
  haveI := isProbabilityMeasure_withDensity_ofReal h0 hint hone
  set L := volume.withDensity fun x => ENNReal.ofReal (N.prob1 x) with hL
  have hloc : N.loc = m := by
    rw [Normal.mk'_eq hc.det_pos] at hN
    cases hN
    rfl
  obtain ⟨A, hA⟩ : ∃ A : Matrix (Fin d) (Fin d) ℝ, A = diagonal (fun i => Real.sqrt (s i)) * V := ⟨_, rfl⟩
  have hAA : Aᵀ * A = cov := by
    rw [← svd_symm hc h.left h.right h.nonneg h.eq, hA]
    simp only [transpose_mul, diagonal_transpose, Matrix.mul_assoc]
    rw [← Matrix.mul_assoc (diagonal _) (diagonal _) V, diagonal_mul_diagonal]
    simp only [Real.mul_self_sqrt (h.nonneg _)]
  have hfun : N.sample1 s V = fun z => z ᵥ* A + m := by
    funext z
    rw [hA, ← hloc]
    rfl
  have hcol : ∀ i, ∑ j, A j i ^ 2 = cov i i := by
    intro i
    rw [← hAA, mul_apply]
    exact Finset.sum_congr rfl fun j _ => by rw [transpose_apply, sq]
  have hcpos : ∀ i, 0 < cov i i := fun i => hc.diag_pos
  have hmeas : Measurable fun z : Fin d → ℝ => z ᵥ* A + m := Continuous.measurable (by fun_prop)
  have hcoord : ∀ (z : Fin d → ℝ) i, (z ᵥ* A + m) i = ∑ j, A j i * z j + m i := by
    intro z i
    simp only [Pi.add_apply, vecMul, dotProduct]
    congr 1
    exact Finset.sum_congr rfl fun j _ => mul_comm _ _
  have htail1 : ∀ i, L.real {x | m i + Real.sqrt (cov i i) * 6 ≤ x i} ≤ Real.exp (-18) := by
    intro i
    have := linear_tail (fun j => A j i) (by rw [hcol]; exact hcpos i)
    rw [← hlaw, hfun, map_measureReal_apply hmeas (measurableSet_le measurable_const (measurable_pi_apply i))]
    convert this using 3
    ext z
    simp only [Set.mem_preimage, Set.mem_setOf_eq, hcoord, hcol]
    constructor <;> intro h <;> linarith
  have htail2 : ∀ i, L.real {x | x i ≤ m i - Real.sqrt (cov i i) * 6} ≤ Real.exp (-18) := by
    intro i
    have := linear_tail (fun j => -A j i) (by simp only [neg_sq]; rw [hcol]; exact hcpos i)
    rw [← hlaw, hfun, map_measureReal_apply hmeas (measurableSet_le (measurable_pi_apply i) measurable_const)]
    convert this using 3
    ext z
    simp only [Set.mem_preimage, Set.mem_setOf_eq, hcoord, hcol, neg_sq, neg_mul, Finset.sum_neg_distrib]
    constructor <;> intro h <;> linarith
  have hcompl : L.real (Set.Icc (fun i => m i - Real.sqrt (cov i i) * 6) (fun i => m i + Real.sqrt (cov i i) * 6))ᶜ ≤
      2 * d * Real.exp (-18) := by
    calc L.real _ ≤ L.real (⋃ i ∈ (Finset.univ : Finset (Fin d)), ({x : Fin d → ℝ | m i + Real.sqrt (cov i i) * 6 ≤ x i} ∪
          {x : Fin d → ℝ | x i ≤ m i - Real.sqrt (cov i i) * 6})) := by
          refine measureReal_mono ?_ (measure_ne_top _ _)
          intro x hx
          simp only [Set.mem_compl_iff, Set.mem_Icc, Pi.le_def, not_and_or, not_forall, not_le] at hx
          simp only [Set.mem_iUnion, Finset.mem_univ, exists_prop, true_and, Set.mem_union, Set.mem_setOf_eq]
          rcases hx with ⟨i, hi⟩ | ⟨i, hi⟩
          · exact ⟨i, Or.inr hi.le⟩
          · exact ⟨i, Or.inl hi.le⟩
      _ ≤ ∑ i : Fin d, L.real ({x : Fin d → ℝ | m i + Real.sqrt (cov i i) * 6 ≤ x i} ∪
          {x : Fin d → ℝ | x i ≤ m i - Real.sqrt (cov i i) * 6}) := measureReal_biUnion_finset_le _ _
      _ ≤ ∑ _i : Fin d, 2 * Real.exp (-18) := by
          refine Finset.sum_le_sum fun i _ => (measureReal_union_le _ _).trans ?_
          linarith [htail1 i, htail2 i]
      _ = 2 * d * Real.exp (-18) := by
          rw [Finset.sum_const, Finset.card_univ, Fintype.card_fin, nsmul_eq_mul]
          ring
  rw [probReal_compl_eq_one_sub measurableSet_Icc] at hcompl
  linarith

end Verif
