import Verif.Model.MultiNested
import Verif.Props.Normal
import Mathlib.MeasureTheory.Measure.Lebesgue.VolumeOfBalls

/-!
# Property C100: the volume of an ellipsoid
-/

set_option linter.unusedSectionVars false
set_option autoImplicit false

namespace Verif
namespace MultiNested

open Matrix MeasureTheory

variable {d : ℕ}

/-! ### Specification -/

/-- The points within one standard deviation: the ellipsoid of a covariance matrix. -/
def ellipsoid (loc : Fin d → ℝ) (cov : Matrix (Fin d) (Fin d) ℝ) : Set (Fin d → ℝ) :=
  {x | (x - loc) ⬝ᵥ (cov⁻¹ *ᵥ (x - loc)) ≤ 1}

/-! ### Proof -/

theorem sphereVol_eq (hd : 0 < d) : sphereVol d = Real.sqrt Real.pi ^ d / Real.Gamma ((d : ℝ) / 2 + 1) := by
  have h2 : (0 : ℝ) < d / 2 := by positivity
  unfold sphereVol
  rw [Real.Gamma_add_one h2.ne', Real.sqrt_eq_rpow, ← Real.rpow_natCast, ← Real.rpow_mul Real.pi_pos.le]
  have : (1 / 2 : ℝ) * d = d / 2 := by ring
  rw [this]
  have := Real.Gamma_pos_of_pos h2
  field_simp

theorem sphereVol_pos (hd : 0 < d) : 0 < sphereVol d := by
  rw [sphereVol_eq hd]
  have h2 : (0 : ℝ) < d / 2 + 1 := by positivity
  have := Real.Gamma_pos_of_pos h2
  positivity

/-- `sphere_vol` is the volume of the unit ball. -/
theorem volume_unit_ball (hd : 0 < d) : volume {y : Fin d → ℝ | y ⬝ᵥ y ≤ 1} = ENNReal.ofReal (sphereVol d) := by
  haveI : Nonempty (Fin d) := ⟨⟨0, hd⟩⟩
  have h := MeasureTheory.volume_sum_rpow_le (Fin d) (p := 2) one_le_two 1
  have hs : {x : Fin d → ℝ | (∑ i, |x i| ^ (2 : ℝ)) ^ (1 / (2 : ℝ)) ≤ 1} = {y : Fin d → ℝ | y ⬝ᵥ y ≤ 1} := by
    ext x
    have e : ∑ i, |x i| ^ (2 : ℝ) = x ⬝ᵥ x := by
      unfold dotProduct
      refine Finset.sum_congr rfl fun i _ => ?_
      rw [Real.rpow_two, sq_abs, sq]
    have h0 : 0 ≤ x ⬝ᵥ x := Finset.sum_nonneg fun i _ => mul_self_nonneg _
    rw [Set.mem_setOf_eq, Set.mem_setOf_eq, e, ← Real.sqrt_eq_rpow, Real.sqrt_le_left zero_le_one, one_pow]
  rw [hs] at h
  rw [h, sphereVol_eq hd]
  have hg : Real.Gamma (1 / 2 + 1) = Real.sqrt Real.pi / 2 := by
    rw [Real.Gamma_add_one (by norm_num), Real.Gamma_one_half_eq]
    ring
  rw [hg, Fintype.card_fin]
  simp only [ENNReal.ofReal_one, one_pow, one_mul]
  congr 2
  ring

/-- The ellipsoid of a covariance matrix has the volume of the unit ball times the square root of the determinant. -/
theorem volume_ellipsoid (hd : 0 < d) (loc : Fin d → ℝ) {cov : Matrix (Fin d) (Fin d) ℝ} (hc : cov.PosDef) :
    volume (ellipsoid loc cov) = ENNReal.ofReal (sphereVol d * Real.sqrt cov.det) := by
  obtain ⟨B, hB, hdet⟩ := Normal.exists_factor hc.inv
  have hq : ∀ v : Fin d → ℝ, v ⬝ᵥ (cov⁻¹ *ᵥ v) = (B *ᵥ v) ⬝ᵥ (B *ᵥ v) := by
    intro v
    rw [hB, ← mulVec_mulVec, dotProduct_mulVec, vecMul_transpose]
  have hs : ellipsoid loc cov = (fun x => x - loc) ⁻¹' (toLin' B ⁻¹' {y : Fin d → ℝ | y ⬝ᵥ y ≤ 1}) := by
    ext x
    simp only [ellipsoid, Set.mem_setOf_eq, Set.mem_preimage, toLin'_apply, hq]
  have hsq : B.det ^ 2 = cov.det⁻¹ := by
    have := congrArg Matrix.det hB
    rw [det_mul, det_transpose, det_nonsing_inv, Ring.inverse_eq_inv'] at this
    rw [this, sq]
  have hB' : |(LinearMap.det (toLin' B))⁻¹| = Real.sqrt cov.det := by
    rw [LinearMap.det_toLin', abs_inv, ← Real.sqrt_sq_eq_abs, hsq, Real.sqrt_inv, inv_inv]
  have ht : volume ((fun x => x - loc) ⁻¹' (toLin' B ⁻¹' {y : Fin d → ℝ | y ⬝ᵥ y ≤ 1})) =
      volume (toLin' B ⁻¹' {y : Fin d → ℝ | y ⬝ᵥ y ≤ 1}) := by
    simp only [sub_eq_add_neg]
    exact measure_preimage_add_right volume (-loc) _
  rw [hs, ht, Measure.addHaar_preimage_linearMap volume (by rwa [LinearMap.det_toLin']), hB', volume_unit_ball hd,
    ← ENNReal.ofReal_mul (Real.sqrt_nonneg _), mul_comm]

/-- **C100**, negation: for the covariance matrix `4 I` in the plane the stored volume is `16 π`, the ellipse has area
`4 π`. -/
theorem C100_refuted : ∃ e : Ell 2, mkEll 0 (Matrix.diagonal fun _ => 4) [] = .ok e ∧ e.vol = 16 * Real.pi ∧
    volume (ellipsoid (0 : Fin 2 → ℝ) (Matrix.diagonal fun _ => 4)) = ENNReal.ofReal (4 * Real.pi) := by
  have hs : sphereVol 2 = Real.pi := by
    rw [sphereVol_eq two_pos, Real.sq_sqrt Real.pi_pos.le]
    norm_num
  have hdet : (Matrix.diagonal fun _ : Fin 2 => (4 : ℝ)).det = 16 := by
    rw [det_diagonal]
    norm_num
  refine ⟨⟨0, Real.pi * 16, []⟩, ?_, by ring, ?_⟩
  · unfold mkEll
    rw [hdet, hs]
    norm_num
  · rw [volume_ellipsoid two_pos 0 (PosDef.diagonal fun _ => by norm_num), hs, hdet, show (16 : ℝ) = 4 ^ 2 by norm_num,
      Real.sqrt_sq (by norm_num), mul_comm]

/-- **C100**, what holds: the stored volume is the volume of the ellipsoid times the square root of the determinant of the
covariance; it is right exactly if that determinant is 1. Missing from the full claim: all other covariances
(`C100_refuted`). -/
theorem C100_partial (hd : 0 < d) (loc : Fin d → ℝ) {cov : Matrix (Fin d) (Fin d) ℝ} (hc : cov.PosDef) (idx : List ℕ) :
    ∃ e, mkEll loc cov idx = .ok e ∧
      ENNReal.ofReal e.vol = volume (ellipsoid loc cov) * ENNReal.ofReal (Real.sqrt cov.det) ∧
      (ENNReal.ofReal e.vol = volume (ellipsoid loc cov) ↔ cov.det = 1) := by
  have h0 := hc.det_pos
  have hs := sphereVol_pos hd
  refine ⟨⟨loc, sphereVol d * cov.det, idx⟩, if_neg (not_le.2 h0), ?_, ?_⟩
  · rw [volume_ellipsoid hd loc hc, ← ENNReal.ofReal_mul (by positivity), mul_assoc, Real.mul_self_sqrt h0.le]
  · rw [volume_ellipsoid hd loc hc, ENNReal.ofReal_eq_ofReal_iff (by positivity) (by positivity)]
    constructor
    · intro h
      have h1 : cov.det = Real.sqrt cov.det := mul_left_cancel₀ hs.ne' h
      have h2 : Real.sqrt cov.det * Real.sqrt cov.det = Real.sqrt cov.det * 1 := by
        rw [Real.mul_self_sqrt h0.le, mul_one]
        exact h1
      have h3 := mul_left_cancel₀ (Real.sqrt_pos.2 h0).ne' h2
      rw [h1, h3]
    · intro h
      rw [h, Real.sqrt_one]

/-- **C100**, one dimension: there `fit` hands over the standard deviation, and the stored volume is the length of the
interval of `inflate` standard deviations around the mean. -/
theorem C100_interval {inflate : ℝ} (hi : 0 < inflate) {pts : List (Fin 1 → ℝ)} (hne : pts ≠ []) (hs : 0 < std pts)
    (idx : List ℕ) :
    ∃ e, fit inflate pts idx = .ok e ∧ e.loc = mean pts ∧ ENNReal.ofReal e.vol =
      volume (Set.Icc (mean pts 0 - inflate * std pts) (mean pts 0 + inflate * std pts)) := by
  have hl : ¬ pts.length < 1 := by
    have := List.length_pos_of_ne_nil hne
    omega
  have hdet : (Matrix.diagonal fun _ : Fin 1 => std pts * inflate).det = std pts * inflate := by simp
  have hp : 0 < std pts * inflate := mul_pos hs hi
  have h1 : sphereVol 1 = 2 := by
    rw [sphereVol_eq one_pos]
    have hg : Real.Gamma (1 / 2 + 1) = Real.sqrt Real.pi / 2 := by
      rw [Real.Gamma_add_one (by norm_num), Real.Gamma_one_half_eq]
      ring
    have : 0 < Real.sqrt Real.pi := Real.sqrt_pos.2 Real.pi_pos
    rw [Nat.cast_one, hg, pow_one]
    field_simp
  refine ⟨⟨mean pts, 2 * (std pts * inflate), idx⟩, ?_, rfl, ?_⟩
  · unfold fit
    rw [if_neg hl, if_neg (by norm_num), if_neg (not_le.2 hs)]
    unfold mkEll
    rw [hdet, if_neg (not_le.2 hp), h1]
  · rw [Real.volume_Icc]
    congr 1
    ring

/-- Cases that meet the hypotheses: a covariance with correlation, and three numbers. -/
example : (!![2, 1; 1, 2] : Matrix (Fin 2) (Fin 2) ℝ).PosDef := by
  refine PosDef.of_dotProduct_mulVec_pos (by ext i j; fin_cases i <;> fin_cases j <;> simp [conjTranspose, transpose]) ?_
  intro x hx
  have h : ¬ (x 0 = 0 ∧ x 1 = 0) := fun h => hx (by ext i; fin_cases i <;> simp [h.1, h.2])
  have e : star x ⬝ᵥ (!![2, 1; 1, 2] *ᵥ x) = x 0 ^ 2 + x 1 ^ 2 + (x 0 + x 1) ^ 2 := by
    simp [dotProduct, mulVec, Fin.sum_univ_two]
    ring
  rw [e]
  by_contra hc
  apply h
  constructor <;> nlinarith [sq_nonneg (x 0), sq_nonneg (x 1), sq_nonneg (x 0 + x 1)]

example : 0 < std [![(0 : ℝ)], ![1], ![2]] := by
  unfold std
  apply Real.sqrt_pos.2
  simp [mean]
  norm_num

end MultiNested
end Verif
