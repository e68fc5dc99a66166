import Verif.Model.Normal
import Mathlib.Analysis.Matrix.Order
import Mathlib.Analysis.SpecialFunctions.Gaussian.GaussianIntegral
import Mathlib.MeasureTheory.Integral.Pi
import Mathlib.MeasureTheory.Group.Integral
import Mathlib.MeasureTheory.Measure.Lebesgue.EqHaar

/-!
# Properties of the multivariate normal: C09, C10, C73
-/

set_option linter.unusedSectionVars false
set_option autoImplicit false

namespace Verif

open Matrix MeasureTheory

variable {d : ℕ}

namespace Normal

theorem mk'_eq {mean : Fin d → ℝ} {cov : Matrix (Fin d) (Fin d) ℝ} (h : 0 < cov.det) :
    mk' mean cov = .ok ⟨mean, cov, cov.det, cov⁻¹, -(1/2) * d * Real.log (Real.pi * 2), -(1/2) * Real.log cov.det⟩ := by
  simp [mk', setMoments, h]

theorem mk'_rejects {mean : Fin d → ℝ} {cov : Matrix (Fin d) (Fin d) ℝ} (h : ¬ 0 < cov.det) :
    mk' mean cov = .error .assertion := by
  simp [mk', setMoments, h]

/-- A positive definite matrix is `Bᵀ B` with `B` invertible. -/
theorem exists_factor {M : Matrix (Fin d) (Fin d) ℝ} (hM : M.PosDef) :
    ∃ B : Matrix (Fin d) (Fin d) ℝ, M = Bᵀ * B ∧ B.det ≠ 0 := by
  open scoped MatrixOrder in
  obtain ⟨B, hB⟩ := CStarAlgebra.nonneg_iff_eq_star_mul_self.mp hM.posSemidef.nonneg
  have hBT : M = Bᵀ * B := by
    rw [hB, star_eq_conjTranspose, conjTranspose_eq_transpose_of_trivial]
  refine ⟨B, hBT, ?_⟩
  intro h0
  have : M.det = 0 := by rw [hBT, det_mul, h0, mul_zero]
  exact ((isUnit_iff_isUnit_det _).1 hM.isUnit).ne_zero this

theorem integral_std : ∫ y : Fin d → ℝ, Real.exp (-(1/2) * (y ⬝ᵥ y)) = Real.sqrt (2 * Real.pi) ^ d := by
  have h1 : ∀ y : Fin d → ℝ, Real.exp (-(1/2) * (y ⬝ᵥ y)) = ∏ i, Real.exp (-(1/2) * y i ^ 2) := by
    intro y
    rw [← Real.exp_sum, ← Finset.mul_sum]
    simp [dotProduct, sq]
  simp_rw [h1]
  rw [integral_fintype_prod_volume_eq_prod (fun _ : Fin d => fun t : ℝ => Real.exp (-(1/2) * t ^ 2))]
  simp only [integral_gaussian, Finset.prod_const, Finset.card_univ, Fintype.card_fin]
  congr 2
  field_simp

theorem integrable_std : Integrable fun y : Fin d → ℝ => Real.exp (-(1/2) * (y ⬝ᵥ y)) := by
  have h1 : (fun y : Fin d → ℝ => Real.exp (-(1/2) * (y ⬝ᵥ y))) = fun y => ∏ i, Real.exp (-(1/2) * y i ^ 2) := by
    funext y
    rw [← Real.exp_sum, ← Finset.mul_sum]
    simp [dotProduct, sq]
  rw [h1]
  exact Integrable.fintype_prod (f := fun _ : Fin d => fun t : ℝ => Real.exp (-(1/2) * t ^ 2))
    (fun _ => integrable_exp_neg_mul_sq (by norm_num))

theorem integral_form {B : Matrix (Fin d) (Fin d) ℝ} (hB : B.det ≠ 0) :
    (Integrable fun x : Fin d → ℝ => Real.exp (-(1/2) * ((B *ᵥ x) ⬝ᵥ (B *ᵥ x)))) ∧
    ∫ x : Fin d → ℝ, Real.exp (-(1/2) * ((B *ᵥ x) ⬝ᵥ (B *ᵥ x))) = |B.det|⁻¹ * Real.sqrt (2 * Real.pi) ^ d := by
  have hmap := Real.map_matrix_volume_pi_eq_smul_volume_pi hB
  have hmeas : Measurable (toLin' B) := (LinearMap.continuous_of_finiteDimensional _).measurable
  set g := fun y : Fin d → ℝ => Real.exp (-(1/2) * (y ⬝ᵥ y)) with hg
  have hgi : Integrable g (Measure.map (toLin' B) volume) := by
    rw [hmap]
    exact integrable_std.smul_measure ENNReal.ofReal_ne_top
  constructor
  · have := (integrable_map_measure hgi.aestronglyMeasurable hmeas.aemeasurable).1 hgi
    exact this
  · have := integral_map hmeas.aemeasurable hgi.aestronglyMeasurable
    rw [hmap, integral_smul_measure, integral_std] at this
    rw [ENNReal.toReal_ofReal (abs_nonneg _), abs_inv, smul_eq_mul] at this
    exact this.symm

end Normal

/-- **C09** For every mean and every positive definite covariance the constructor succeeds and the object built is the
Gaussian density: positive, symmetric about the mean, largest at the mean, integrating to 1, with
`log_prob = log prob` and the value `exp(-(x-m)ᵀ Σ⁻¹ (x-m)/2) / sqrt((2π)^d det Σ)`. -/
theorem C09_normal_density (m : Fin d → ℝ) (cov : Matrix (Fin d) (Fin d) ℝ) (hc : cov.PosDef) :
    ∃ s, Normal.mk' m cov = .ok s ∧
      (∀ x, s.prob1 x = Real.exp (-(1/2) * ((x - m) ⬝ᵥ (cov⁻¹ *ᵥ (x - m)))) / Real.sqrt ((2 * Real.pi) ^ d * cov.det)) ∧
      (∀ x, 0 < s.prob1 x ∧ Real.log (s.prob1 x) = s.logProb1 x) ∧
      (∀ v, s.prob1 (m + v) = s.prob1 (m - v)) ∧
      (∀ x, x ≠ m → s.prob1 x < s.prob1 m) ∧
      Integrable s.prob1 ∧ ∫ x, s.prob1 x = 1 := by
  have hdet : 0 < cov.det := hc.det_pos
  have hpi : 0 < 2 * Real.pi := by positivity
  have hval : ∀ (s : Normal d), s = ⟨m, cov, cov.det, cov⁻¹, -(1/2) * d * Real.log (Real.pi * 2),
      -(1/2) * Real.log cov.det⟩ → ∀ x, s.prob1 x =
        Real.exp (-(1/2) * ((x - m) ⬝ᵥ (cov⁻¹ *ᵥ (x - m)))) / Real.sqrt ((2 * Real.pi) ^ d * cov.det) := by
    rintro s rfl x
    simp only [Normal.prob1, Normal.logProb1]
    rw [Real.exp_add, div_eq_mul_inv, mul_comm]
    congr 1
    · have : m - x = -(x - m) := by abel
      rw [this, ← dotProduct_mulVec, mulVec_neg, neg_dotProduct, dotProduct_neg, neg_neg]
    · rw [Real.sqrt_eq_rpow, ← Real.rpow_neg (by positivity), Real.rpow_def_of_pos (by positivity),
        Real.log_mul (by positivity) hdet.ne', Real.log_pow, mul_comm Real.pi 2]
      congr 1
      ring
  refine ⟨_, Normal.mk'_eq hdet, hval _ rfl, ?_, ?_, ?_, ?_⟩
  · intro x
    exact ⟨Real.exp_pos _, by simp [Normal.prob1]⟩
  · intro v
    rw [hval _ rfl, hval _ rfl]
    simp [mulVec_neg, neg_dotProduct, dotProduct_neg]
  · intro x hx
    rw [hval _ rfl, hval _ rfl]
    have hq : 0 < (x - m) ⬝ᵥ (cov⁻¹ *ᵥ (x - m)) := by
      have := hc.inv.dotProduct_mulVec_pos (x := x - m) (sub_ne_zero.2 hx)
      simpa using this
    apply div_lt_div_of_pos_right _ (by positivity)
    apply Real.exp_lt_exp.2
    simp only [sub_self, zero_dotProduct, mul_zero]
    linarith
  · obtain ⟨B, hB, hB0⟩ := Normal.exists_factor hc.inv
    obtain ⟨i1, i2⟩ := Normal.integral_form hB0
    have hform : ∀ x : Fin d → ℝ, x ⬝ᵥ (cov⁻¹ *ᵥ x) = (B *ᵥ x) ⬝ᵥ (B *ᵥ x) := by
      intro x
      rw [hB, ← mulVec_mulVec, dotProduct_mulVec, vecMul_transpose]
    have hs := hval _ rfl
    have e1 : (fun x => Real.exp (-(1/2) * ((x - m) ⬝ᵥ (cov⁻¹ *ᵥ (x - m))))) =
        fun x => (fun y => Real.exp (-(1/2) * ((B *ᵥ y) ⬝ᵥ (B *ᵥ y)))) (x - m) := by
      funext x
      simp only [hform]
    constructor
    · rw [show Normal.prob1 _ = _ from funext hs]
      apply Integrable.div_const
      rw [e1]
      exact i1.comp_sub_right m
    · simp_rw [hs]
      rw [integral_div, e1, integral_sub_right_eq_self (μ := volume) (fun y => Real.exp (-(1/2) * ((B *ᵥ y) ⬝ᵥ (B *ᵥ y)))) m, i2]
      have hBd : cov.det = (|B.det|⁻¹) ^ 2 := by
        have h1 : cov.det⁻¹ = B.det ^ 2 := by
          have := congrArg Matrix.det hB
          rw [det_mul, det_transpose, det_nonsing_inv, Ring.inverse_eq_inv'] at this
          rw [this]; ring
        rw [inv_pow, sq_abs, ← h1, inv_inv]
      have hsq : Real.sqrt ((2 * Real.pi) ^ d * cov.det) = Real.sqrt (2 * Real.pi) ^ d * |B.det|⁻¹ := by
        rw [hBd, Real.sqrt_eq_iff_mul_self_eq (by positivity) (by positivity), eq_comm]
        have := Real.mul_self_sqrt hpi.le
        calc _ = (Real.sqrt (2 * Real.pi) * Real.sqrt (2 * Real.pi)) ^ d * |B.det|⁻¹ ^ 2 := by ring
          _ = _ := by rw [this]
      rw [hsq]
      have : |B.det|⁻¹ ≠ 0 := by simpa using hB0
      field_simp

/-- A two dimensional positive definite covariance with cross terms. -/
example : (!![2, 1; 1, 2] : Matrix (Fin 2) (Fin 2) ℝ).PosDef := by
  rw [posDef_iff_dotProduct_mulVec]
  constructor
  · ext i j; fin_cases i <;> fin_cases j <;> simp
  · intro x hx
    have : x 0 ≠ 0 ∨ x 1 ≠ 0 := by
      by_contra h
      push Not at h
      apply hx
      funext i; fin_cases i <;> simp [h.1, h.2]
    simp [dotProduct, mulVec, Fin.sum_univ_two]
    rcases this with h | h
    · have := sq_pos_of_ne_zero h
      nlinarith [sq_nonneg (x 0 + 2 * x 1), sq_nonneg (x 0 + x 1)]
    · have := sq_pos_of_ne_zero h
      nlinarith [sq_nonneg (2 * x 0 + x 1), sq_nonneg (x 0 + x 1)]

/-- State after a history of `set_moments` calls, accepted or not. -/
noncomputable def Normal.history (s : Normal d) (calls : List ((Fin d → ℝ) × Matrix (Fin d) (Fin d) ℝ)) : Normal d :=
  calls.foldl (fun s c => (s.setMoments c.1 c.2).1) s

/-- The last moments with a positive determinant in a history (the first argument if there are none). -/
noncomputable def lastAccepted (c0 : (Fin d → ℝ) × Matrix (Fin d) (Fin d) ℝ)
    (calls : List ((Fin d → ℝ) × Matrix (Fin d) (Fin d) ℝ)) : (Fin d → ℝ) × Matrix (Fin d) (Fin d) ℝ :=
  calls.foldl (fun a c => if 0 < c.2.det then c else a) c0

/-- **C10** After any history of `set_moments` calls, some of which may have raised, `log_prob` and `prob` are those of a
distribution freshly built with the last moments that were accepted; and a call raises exactly when the determinant
of the new covariance is not positive. -/
theorem C10_set_moments (m0 : Fin d → ℝ) (cov0 : Matrix (Fin d) (Fin d) ℝ) (s0 : Normal d)
    (h0 : Normal.mk' m0 cov0 = .ok s0) (calls : List ((Fin d → ℝ) × Matrix (Fin d) (Fin d) ℝ)) :
    (∃ s, Normal.mk' (lastAccepted (m0, cov0) calls).1 (lastAccepted (m0, cov0) calls).2 = .ok s ∧
      ∀ x, (s0.history calls).logProb1 x = s.logProb1 x ∧ (s0.history calls).prob1 x = s.prob1 x) ∧
    (∀ m cov, ((s0.history calls).setMoments m cov).2 = none ↔ 0 < cov.det) := by
  have hdet0 : 0 < cov0.det := by
    by_contra h
    rw [Normal.mk'_rejects h] at h0
    cases h0
  constructor
  · have key : ∀ (calls : List ((Fin d → ℝ) × Matrix (Fin d) (Fin d) ℝ)) (s0 : Normal d) (m0) (cov0), 0 < cov0.det →
        (∃ dt, s0 = ⟨m0, cov0, dt, cov0⁻¹, -(1/2) * d * Real.log (Real.pi * 2), -(1/2) * Real.log cov0.det⟩) →
        0 < (lastAccepted (m0, cov0) calls).2.det ∧ ∃ dt, s0.history calls =
          ⟨(lastAccepted (m0, cov0) calls).1, (lastAccepted (m0, cov0) calls).2, dt,
            ((lastAccepted (m0, cov0) calls).2)⁻¹, -(1/2) * d * Real.log (Real.pi * 2),
            -(1/2) * Real.log (lastAccepted (m0, cov0) calls).2.det⟩ := by
      intro calls
      induction calls with
      | nil => intro s0 m0 cov0 h h'; exact ⟨h, h'⟩
      | cons c calls ih =>
        rintro s0 m0 cov0 h ⟨dt, rfl⟩
        obtain ⟨m, cov⟩ := c
        by_cases hc : 0 < cov.det
        · have := ih (Normal.setMoments ⟨m0, cov0, dt, cov0⁻¹, -(1/2) * d * Real.log (Real.pi * 2),
            -(1/2) * Real.log cov0.det⟩ m cov).1 m cov hc ⟨cov.det, by simp [Normal.setMoments, hc]⟩
          simpa [lastAccepted, Normal.history, hc] using this
        · have := ih (Normal.setMoments ⟨m0, cov0, dt, cov0⁻¹, -(1/2) * d * Real.log (Real.pi * 2),
            -(1/2) * Real.log cov0.det⟩ m cov).1 m0 cov0 h ⟨cov.det, by simp [Normal.setMoments, hc]⟩
          simpa [lastAccepted, Normal.history, hc] using this
    have hs0 : s0 = ⟨m0, cov0, cov0.det, cov0⁻¹, -(1/2) * d * Real.log (Real.pi * 2), -(1/2) * Real.log cov0.det⟩ := by
      rw [Normal.mk'_eq hdet0] at h0
      simpa using h0.symm
    obtain ⟨k1, dt, k2⟩ := key calls s0 m0 cov0 hdet0 ⟨_, hs0⟩
    refine ⟨_, Normal.mk'_eq k1, fun x => ?_⟩
    rw [k2]
    exact ⟨rfl, rfl⟩
  · intro m cov
    by_cases hc : 0 < cov.det <;> simp [Normal.setMoments, hc]

/-- A history with an accepted call between two rejected ones. -/
example : lastAccepted (d := 1) (![0], !![1]) [(![3], !![-1]), (![1], !![2]), (![2], !![0])] = (![1], !![2]) := by
  have h1 : ¬ (0:ℝ) < (!![-1] : Matrix (Fin 1) (Fin 1) ℝ).det := by norm_num [det_fin_one]
  have h2 : (0:ℝ) < (!![2] : Matrix (Fin 1) (Fin 1) ℝ).det := by norm_num [det_fin_one]
  have h3 : ¬ (0:ℝ) < (!![0] : Matrix (Fin 1) (Fin 1) ℝ).det := by norm_num [det_fin_one]
  simp only [lastAccepted, List.foldl_cons, List.foldl_nil, h1, h2, h3, if_true, if_false]

/-- **C73, refuted**: the constructor accepts the negative definite matrix `-I` in dimension 2 (its determinant is
positive) and the resulting "density" is unbounded. -/
theorem C73_refuted : ∃ s : Normal 2, Normal.mk' 0 (!![-1, 0; 0, -1]) = .ok s ∧ ∀ B : ℝ, ∃ x, B < s.prob1 x := by
  have hdet : (!![-1, 0; 0, -1] : Matrix (Fin 2) (Fin 2) ℝ).det = 1 := by norm_num [det_fin_two]
  have hinv : (!![-1, 0; 0, -1] : Matrix (Fin 2) (Fin 2) ℝ)⁻¹ = !![-1, 0; 0, -1] := by
    apply inv_eq_right_inv
    ext i j; fin_cases i <;> fin_cases j <;> simp [Matrix.mul_apply, Fin.sum_univ_two]
  refine ⟨_, Normal.mk'_eq (by rw [hdet]; norm_num), ?_⟩
  intro B
  set c := -(1/2 : ℝ) * (2:ℕ) * Real.log (Real.pi * 2) + -(1/2) * Real.log (!![-1, 0; 0, -1] : Matrix (Fin 2) (Fin 2) ℝ).det
  -- choose `x = (t, 0)` with `t²/2 + c` above `log`-size of `B`
  obtain ⟨t, ht⟩ : ∃ t : ℝ, B < Real.exp (c + t ^ 2 / 2) := by
    refine ⟨Real.sqrt (2 * |B - c|), ?_⟩
    rw [Real.sq_sqrt (by positivity)]
    have h1 := Real.add_one_le_exp (c + 2 * |B - c| / 2)
    have h2 := le_abs_self (B - c)
    linarith
  refine ⟨![t, 0], ?_⟩
  simp only [Normal.prob1, Normal.logProb1, hinv]
  have : -(1/2 : ℝ) * (((0 : Fin 2 → ℝ) - ![t, 0]) ᵥ* !![-1, 0; 0, -1] ⬝ᵥ ((0 : Fin 2 → ℝ) - ![t, 0])) = t ^ 2 / 2 := by
    simp [dotProduct, vecMul, Fin.sum_univ_two]
    ring
  rw [this]
  exact ht

end Verif
