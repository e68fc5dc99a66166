import Verif.Proof.Support
import Verif.Props.Normal
import Verif.Props.Densities
import Mathlib.Probability.Moments.Variance
import Mathlib.MeasureTheory.Integral.IntervalIntegral.FundThmCalculus

/-!
# Property C124: the support a distribution reports holds most of its mass
-/

set_option linter.unusedSectionVars false
set_option autoImplicit false

namespace Verif

open MeasureTheory Matrix ProbabilityTheory

variable {d : ℕ}

/-! ### helper lemmas -/

theorem boxMass_fin_one (f : (Fin 1 → ℝ) → ℝ) (a b : ℝ) (h : a ≤ b) :
    boxMass f (fun _ => a) (fun _ => b) = ∫ t in a..b, f fun _ => t := by
  rw [boxMass, ← integral_indicator measurableSet_Icc, integral_fin_one', intervalIntegral.integral_of_le h,
    ← integral_Icc_eq_integral_Ioc, ← integral_indicator measurableSet_Icc]
  congr 1
  funext t
  simp [Set.indicator, Pi.le_def]

theorem exp_neg_four_bounds : 18315/1000000 < Real.exp (-4) ∧ Real.exp (-4) < 18316/1000000 := by
  have h1 := Real.exp_one_gt_d9
  have h2 := Real.exp_one_lt_d9
  have e : Real.exp (-4) = (Real.exp 1 ^ 4)⁻¹ := by
    rw [Real.exp_neg, ← Real.exp_nat_mul]; norm_num
  rw [e]
  constructor
  · rw [lt_inv_comm₀ (by norm_num) (by positivity)]
    calc Real.exp 1 ^ 4 < 2.7182818286 ^ 4 := by gcongr
      _ < _ := by norm_num
  · rw [inv_lt_comm₀ (by positivity) (by norm_num)]
    calc _ < (2.7182818283:ℝ) ^ 4 := by norm_num
      _ < Real.exp 1 ^ 4 := by gcongr

/-- One coordinate of the exponential density of mean 1. -/
noncomputable def expOne (t : ℝ) : ℝ := if 0 < t then Real.exp (-t) else 0

theorem value_eq_prod (x : Fin d → ℝ) : Exponential.value (fun _ => 1) x = ∏ i, expOne (x i) := by
  unfold Exponential.value expOne
  split_ifs with hx
  · rw [← Finset.sum_neg_distrib, Real.exp_sum]
    exact Finset.prod_congr rfl fun i _ => by simp [hx i]
  · push Not at hx
    obtain ⟨i, hi⟩ := hx
    symm
    exact Finset.prod_eq_zero (Finset.mem_univ i) (by simp [not_lt.2 hi])

theorem boxMass_prod (f : ℝ → ℝ) (a b : ℝ) (h : a ≤ b) :
    boxMass (fun x : Fin d → ℝ => ∏ i, f (x i)) (fun _ => a) (fun _ => b) = (∫ t in a..b, f t) ^ d := by
  have e : ∀ x : Fin d → ℝ, (Set.Icc (fun _ => a) (fun _ => b)).indicator (fun x : Fin d → ℝ => ∏ i, f (x i)) x =
      ∏ i, (Set.Icc a b).indicator f (x i) := by
    intro x
    by_cases hx : x ∈ Set.Icc (fun _ : Fin d => a) (fun _ => b)
    · rw [Set.indicator_of_mem hx]
      refine Finset.prod_congr rfl fun i _ => ?_
      rw [Set.indicator_of_mem (show x i ∈ Set.Icc a b from ⟨hx.1 i, hx.2 i⟩)]
    · rw [Set.indicator_of_notMem hx]
      have : ∃ i, x i ∉ Set.Icc a b := by
        by_contra hc
        push Not at hc
        exact hx ⟨fun i => (hc i).1, fun i => (hc i).2⟩
      obtain ⟨i, hi⟩ := this
      rw [Finset.prod_eq_zero (Finset.mem_univ i) (Set.indicator_of_notMem hi f)]
  rw [boxMass, ← integral_indicator measurableSet_Icc]
  simp_rw [e]
  rw [integral_fintype_prod_volume_eq_prod (fun (_ : Fin d) => (Set.Icc a b).indicator f), Finset.prod_const,
    Finset.card_univ, Fintype.card_fin, integral_indicator measurableSet_Icc, integral_Icc_eq_integral_Ioc,
    intervalIntegral.integral_of_le h]

theorem integral_expOne : ∫ t in (0:ℝ)..4, expOne t = 1 - Real.exp (-4) := by
  rw [intervalIntegral.integral_congr_ae (g := fun t => Real.exp (-t))]
  · rw [intervalIntegral.integral_eq_sub_of_hasDerivAt (f := fun t => -Real.exp (-t))]
    · simp; ring
    · intro x _
      exact ((hasDerivAt_id x).neg.exp.neg).congr_deriv (by simp)
    · exact Continuous.intervalIntegrable (by fun_prop) _ _
  · refine Filter.Eventually.of_forall fun t ht => ?_
    rw [Set.uIoc_of_le (by norm_num)] at ht
    simp [expOne, ht.1]

/-! ### the property -/

/-- **C124** (uniform) The support of every uniform distribution holds its whole mass. -/
theorem C124_partial_uniform (c : Fin d → ℝ) (rs : List ℝ) (rad : Fin d → ℝ) (hr : RadiusFor rs rad) (hpos : ∀ i, 0 < rad i) :
    ∃ S g, Uniform.build c rs = .ok S ∧ (∀ x, S.dist.prob1 x = .fin (g x)) ∧ ∫ x, g x = 1 ∧ boxMass g S.lo S.hi = 1 ∧
      HoldsMost g S.lo S.hi := by
  obtain ⟨U, hU, hp, -, hi, h1⟩ := C06_uniform_density c rs rad hr hpos
  obtain ⟨U', hU', hl, hs, -⟩ := Uniform.mk'_of_radius c rs rad hr
  rw [hU] at hU'
  cases hU'
  have hm : boxMass (uniformDensity c rad) (fun i => c i - U.scale i) (fun i => c i + U.scale i) = 1 := by
    rw [boxMass, setIntegral_eq_integral_of_forall_compl_eq_zero, h1]
    intro x hx
    unfold uniformDensity
    apply Set.indicator_of_notMem
    intro hc
    apply hx
    rw [hs]
    exact ⟨fun i => (hc i (Set.mem_univ i)).1.le, fun i => (hc i (Set.mem_univ i)).2⟩
  refine ⟨_, uniformDensity c rad, by rw [Uniform.build, hU]; rfl, hp, h1, hm, hi, ?_⟩
  rw [hm, h1]
  norm_num

/-- A square whose coordinates have different radii. -/
example : RadiusFor [(1:ℝ), 2] ![1, 2] ∧ ∀ i, (0:ℝ) < (![1, 2] : Fin 2 → ℝ) i :=
  ⟨Or.inr (by simp), fun i => by fin_cases i <;> norm_num⟩

/-- **C124** (exponential of unit means, as in the benchden suite) The support holds `(1 - exp (-4))^d` of the mass, which
is more than half exactly up to dimension 37. -/
theorem C124_partial_exponential :
    ∃ g : (Fin d → ℝ) → ℝ,
      (∀ rows, (∃ r ∈ rows, ∀ i, 0 < r i) → (Exponential.build fun _ : Fin d => 1).dist.prob (.mat d rows) = .ok (rows.map g)) ∧
      ∫ x, g x = 1 ∧
      boxMass g (Exponential.build fun _ : Fin d => 1).lo (Exponential.build fun _ : Fin d => 1).hi = (1 - Real.exp (-4)) ^ d ∧
      (HoldsMost g (Exponential.build fun _ : Fin d => 1).lo (Exponential.build fun _ : Fin d => 1).hi ↔ d ≤ 37) := by
  obtain ⟨-, -, -, hi, h1⟩ := C11_partial (d := d)
  have hm : boxMass (Exponential.value fun _ : Fin d => 1) (Exponential.build fun _ : Fin d => 1).lo
      (Exponential.build fun _ : Fin d => 1).hi = (1 - Real.exp (-4)) ^ d := by
    rw [← integral_expOne, ← boxMass_prod _ _ _ (by norm_num)]
    have : (Exponential.value fun _ : Fin d => 1) = fun x => ∏ i, expOne (x i) := funext value_eq_prod
    rw [this]
    simp [Exponential.build]
  refine ⟨Exponential.value fun _ => 1, fun rows h => C74_exponential_partial _ (by simp) rows h, h1, hm, ?_⟩
  unfold HoldsMost
  rw [hm, h1]
  obtain ⟨b1, b2⟩ := exp_neg_four_bounds
  constructor
  · rintro ⟨-, h⟩
    by_contra hd
    push Not at hd
    have : (1 - Real.exp (-4)) ^ d ≤ (1 - Real.exp (-4)) ^ 38 := pow_le_pow_of_le_one (by linarith) (by linarith) hd
    have h3 : (1 - Real.exp (-4)) ^ 38 ≤ (1 - 18315/1000000 : ℝ) ^ 38 := pow_le_pow_left₀ (by linarith) (by linarith) _
    have h4 : (1 - 18315/1000000 : ℝ) ^ 38 < 1/2 := by norm_num
    linarith
  · intro hd
    refine ⟨hi, ?_⟩
    have : (1 - Real.exp (-4)) ^ 37 ≤ (1 - Real.exp (-4)) ^ d := pow_le_pow_of_le_one (by linarith) (by linarith) hd
    have h3 : (1 - 18316/1000000 : ℝ) ^ 37 ≤ (1 - Real.exp (-4)) ^ 37 := pow_le_pow_left₀ (by norm_num) (by linarith) _
    have h4 : (1/2 : ℝ) < (1 - 18316/1000000 : ℝ) ^ 37 := by norm_num
    linarith

/-- **C124** (Laplace) The support holds `1 - exp (-6)` of the mass. -/
theorem C124_partial_laplace :
    ∃ g : (Fin 1 → ℝ) → ℝ, (∀ rows, Laplace.prob (.mat 1 rows) = .ok (.mat 1 (rows.map fun r _ => g r))) ∧
      ∫ x, g x = 1 ∧ boxMass g Laplace.support.1 Laplace.support.2 = 1 - Real.exp (-6) ∧
      HoldsMost g Laplace.support.1 Laplace.support.2 := by
  have h1 : ∫ x : Fin 1 → ℝ, laplaceDensity (x 0) = 1 := by rw [integral_fin_one, integral_laplace]
  have hm : boxMass (fun x : Fin 1 → ℝ => laplaceDensity (x 0)) Laplace.support.1 Laplace.support.2 = 1 - Real.exp (-6) := by
    rw [Laplace.support, boxMass_fin_one _ _ _ (by norm_num), ← intervalIntegral.integral_add_adjacent_intervals (b := 0)]
    · have e1 : ∫ t in (-6:ℝ)..0, laplaceDensity t = ∫ t in (-6:ℝ)..0, 1 / 2 * Real.exp t := by
        apply intervalIntegral.integral_congr
        intro t ht
        rw [Set.uIcc_of_le (by norm_num)] at ht
        simp [laplaceDensity, abs_of_nonpos ht.2]
      have e2 : ∫ t in (0:ℝ)..6, laplaceDensity t = ∫ t in (0:ℝ)..6, 1 / 2 * Real.exp (-t) := by
        apply intervalIntegral.integral_congr
        intro t ht
        rw [Set.uIcc_of_le (by norm_num)] at ht
        simp [laplaceDensity, abs_of_nonneg ht.1]
      rw [e1, e2, intervalIntegral.integral_const_mul, intervalIntegral.integral_const_mul, integral_exp,
        intervalIntegral.integral_comp_neg (fun t => Real.exp t), integral_exp]
      simp
      ring
    · exact Continuous.intervalIntegrable (by unfold laplaceDensity; fun_prop) _ _
    · exact Continuous.intervalIntegrable (by unfold laplaceDensity; fun_prop) _ _
  refine ⟨fun x => laplaceDensity (x 0), fun rows => (C12_partial.1 rows).1, h1, hm, integrable_of_integral_eq_one h1, ?_⟩
  rw [hm, h1]
  have : Real.exp (-6) ≤ Real.exp (-4) := Real.exp_le_exp.2 (by norm_num)
  have := exp_neg_four_bounds.2
  linarith

/-- **C124** (Maxwell) The support holds `1 - exp (-8)` of the mass. -/
theorem C124_partial_maxwell :
    ∃ g : (Fin 1 → ℝ) → ℝ, (∀ rows, Maxwell.prob (.mat 1 rows) = .ok (rows.map g)) ∧
      ∫ x, g x = 1 ∧ boxMass g Maxwell.support.1 Maxwell.support.2 = 1 - Real.exp (-8) ∧
      HoldsMost g Maxwell.support.1 Maxwell.support.2 := by
  have h1 : ∫ x : Fin 1 → ℝ, maxwellDensity (x 0) = 1 := by rw [integral_fin_one, integral_maxwell]
  have hm : boxMass (fun x : Fin 1 → ℝ => maxwellDensity (x 0)) Maxwell.support.1 Maxwell.support.2 = 1 - Real.exp (-8) := by
    rw [Maxwell.support, boxMass_fin_one _ _ _ (by norm_num),
      intervalIntegral.integral_congr_ae (g := fun t => t * Real.exp (-(t ^ 2 / 2)))]
    · rw [intervalIntegral.integral_eq_sub_of_hasDerivAt (f := fun t => -Real.exp (-(t ^ 2 / 2)))]
      · norm_num; ring
      · intro x _
        have h2 : HasDerivAt (fun x : ℝ => -(x ^ 2 / 2)) (-x) x :=
          ((hasDerivAt_pow 2 x).div_const 2).neg.congr_deriv (by norm_num)
        exact h2.exp.neg.congr_deriv (by ring)
      · exact Continuous.intervalIntegrable (by fun_prop) _ _
    · refine Filter.Eventually.of_forall fun t ht => ?_
      rw [Set.uIoc_of_le (by norm_num)] at ht
      simp [maxwellDensity, ht.1]
  refine ⟨fun x => maxwellDensity (x 0), C74_maxwell, h1, hm, integrable_of_integral_eq_one h1, ?_⟩
  rw [hm, h1]
  have : Real.exp (-8) ≤ Real.exp (-4) := Real.exp_le_exp.2 (by norm_num)
  have := exp_neg_four_bounds.2
  linarith

/-- **C124** (symmetric Pareto) The support holds `1 - 1 / sqrt 21`, about 78 percent, of the mass. -/
theorem C124_partial_pareto :
    ∃ g : (Fin 1 → ℝ) → ℝ, (∀ rows, rows ≠ [] → Pareto.prob (.mat 1 rows) = .ok (rows.map g)) ∧
      ∫ x, g x = 1 ∧ boxMass g Pareto.support.1 Pareto.support.2 = 1 - 1 / Real.sqrt 21 ∧
      HoldsMost g Pareto.support.1 Pareto.support.2 := by
  have h1 : ∫ x : Fin 1 → ℝ, paretoDensity (x 0) = 1 := by rw [integral_fin_one, integral_pareto]
  have hcont : Continuous paretoDensity := by
    unfold paretoDensity
    refine Continuous.inv₀ (continuous_const.mul (Continuous.rpow_const (by fun_prop) fun x => Or.inr (by norm_num))) fun x => ?_
    positivity
  have hhalf : ∫ t in (0:ℝ)..20, paretoDensity t = 1/2 - 1/2 * (1 / Real.sqrt 21) := by
    have hd : ∀ t ∈ Set.uIcc (0:ℝ) 20, HasDerivAt (fun t : ℝ => -(1/2) * (1 + t) ^ (-1/2 : ℝ)) (paretoDensity t) t := by
      intro t ht
      rw [Set.uIcc_of_le (by norm_num)] at ht
      have hp : 0 < 1 + t := by linarith [ht.1]
      have := (((hasDerivAt_id t).const_add 1).rpow_const (p := (-1/2 : ℝ)) (Or.inl (by simpa using hp.ne'))).const_mul (-(1/2) : ℝ)
      refine this.congr_deriv ?_
      simp only [paretoDensity, abs_of_nonneg ht.1, id]
      rw [mul_inv, ← Real.rpow_neg hp.le]
      norm_num
      ring
    rw [intervalIntegral.integral_eq_sub_of_hasDerivAt hd (hcont.intervalIntegrable _ _)]
    have e : ((1:ℝ) + 20) ^ (-1/2 : ℝ) = 1 / Real.sqrt 21 := by
      rw [show (-1/2 : ℝ) = -(1/2) by norm_num, Real.rpow_neg (by norm_num), ← Real.sqrt_eq_rpow]
      norm_num
    rw [e]
    norm_num
    ring
  have hm : boxMass (fun x : Fin 1 → ℝ => paretoDensity (x 0)) Pareto.support.1 Pareto.support.2 = 1 - 1 / Real.sqrt 21 := by
    rw [Pareto.support, boxMass_fin_one _ _ _ (by norm_num), ← intervalIntegral.integral_add_adjacent_intervals (b := 0)
      (hcont.intervalIntegrable _ _) (hcont.intervalIntegrable _ _)]
    have e1 : ∫ t in (-20:ℝ)..0, paretoDensity t = ∫ t in (0:ℝ)..20, paretoDensity t := by
      have := intervalIntegral.integral_comp_neg (a := 0) (b := 20) paretoDensity
      rw [neg_zero] at this
      rw [← this]
      apply intervalIntegral.integral_congr
      intro t _
      simp [paretoDensity]
    rw [e1, hhalf]
    ring
  refine ⟨fun x => paretoDensity (x 0), fun rows h => (C12_partial.2.1 rows h).1, h1, hm, integrable_of_integral_eq_one h1, ?_⟩
  rw [hm, h1]
  have h4 : (4:ℝ) < Real.sqrt 21 := Real.lt_sqrt_of_sq_lt (by norm_num)
  have : 1 / Real.sqrt 21 < 1 / 4 := one_div_lt_one_div_of_lt (by norm_num) h4
  linarith

theorem exp_neg_eighteen : 2 * (16000000 : ℝ) * Real.exp (-18) < 1/2 := by
  have h1 := Real.exp_one_gt_d9
  have e : Real.exp (-18) = (Real.exp 1 ^ 18)⁻¹ := by
    rw [Real.exp_neg, ← Real.exp_nat_mul]; norm_num
  have h2 : (2.7182818283:ℝ) ^ 18 < Real.exp 1 ^ 18 := by gcongr
  rw [e, ← div_eq_mul_inv, div_lt_iff₀ (by positivity)]
  refine lt_trans ?_ (mul_lt_mul_of_pos_left h2 (by norm_num))
  norm_num

theorem NormalParams.build_eq {p : NormalParams d} (hs : p.support = none) (hc : p.sigma.PosDef) :
    ∃ N, Normal.mk' p.mean p.sigma = .ok N ∧ p.build = (.ok ⟨N, fun i => p.mean i - Real.sqrt (p.sigma i i) * 6,
      fun i => p.mean i + Real.sqrt (p.sigma i i) * 6⟩, { p with support := some (fun i => p.mean i - Real.sqrt (p.sigma i i) * 6,
      fun i => p.mean i + Real.sqrt (p.sigma i i) * 6) }) := by
  obtain ⟨N, hN, -⟩ := C09_normal_density p.mean p.sigma hc
  refine ⟨N, hN, ?_⟩
  simp [NormalParams.build, NormalParams.withSupport, hs, hN, Except.map]

/-- **C124** (normal without a given support) The support of a freshly constructed normal distribution holds at least
`1 - 2 d exp (-18)` of the mass, for every mean and every positive definite covariance, and more than half of it up to
dimension 16 million. -/
theorem C124_partial_normal (p : NormalParams d) (hs : p.support = none) (hc : p.sigma.PosDef) :
    ∃ S, p.build.1 = .ok S ∧ ∫ x, S.dist.prob1 x = 1 ∧ 1 - 2 * d * Real.exp (-18) ≤ boxMass S.dist.prob1 S.lo S.hi ∧
      (d ≤ 16000000 → HoldsMost S.dist.prob1 S.lo S.hi) := by
  obtain ⟨N, hN, hb⟩ := NormalParams.build_eq hs hc
  obtain ⟨N', hN', -, -, -, -, hi, h1⟩ := C09_normal_density p.mean p.sigma hc
  rw [hN] at hN'
  cases hN'
  have hm := normal_boxMass p.mean p.sigma hc N hN
  refine ⟨_, by rw [hb], h1, hm, fun hd => ⟨hi, ?_⟩⟩
  refine lt_of_lt_of_le ?_ hm
  rw [h1]
  have h2 := exp_neg_eighteen
  have h3 : (d:ℝ) ≤ 16000000 := by exact_mod_cast hd
  have h4 := Real.exp_pos (-18)
  nlinarith

/-- Two correlated coordinates. -/
example : (⟨![0, 5], !![2, 1; 1, 2], none⟩ : NormalParams 2).sigma.PosDef := by
  refine Matrix.PosDef.of_dotProduct_mulVec_pos ?_ fun x hx => ?_
  · ext i j; fin_cases i <;> fin_cases j <;> rfl
  · have e : star x ⬝ᵥ (!![2, 1; 1, 2] *ᵥ x) = x 0 ^ 2 + x 1 ^ 2 + (x 0 + x 1) ^ 2 := by
      simp [Matrix.mulVec, dotProduct, Fin.sum_univ_two]
      ring
    show 0 < star x ⬝ᵥ (!![2, 1; 1, 2] *ᵥ x)
    rw [e]
    have hne : x 0 ≠ 0 ∨ x 1 ≠ 0 := by
      by_contra h
      push Not at h
      exact hx (funext fun i => by fin_cases i <;> simp [h.1, h.2])
    rcases hne with h | h <;> positivity

/-- The mass a density with integral one puts on two disjoint boxes is at most one. -/
theorem boxMass_add_le {f : (Fin d → ℝ) → ℝ} (h0 : ∀ x, 0 ≤ f x) (hi : Integrable f) (h1 : ∫ x, f x = 1)
    {a b a' b' : Fin d → ℝ} (hd : Disjoint (Set.Icc a b) (Set.Icc a' b')) : boxMass f a b + boxMass f a' b' ≤ 1 := by
  haveI := isProbabilityMeasure_withDensity_ofReal h0 hi h1
  rw [boxMass_eq_real h0 hi, boxMass_eq_real h0 hi, ← measureReal_union hd measurableSet_Icc]
  exact measureReal_le_one

theorem stale_support {p : NormalParams d} (hc : p.sigma.PosDef) (hd : d ≤ 16000000) {mean' : Fin d → ℝ}
    (hfar : ∃ i, Real.sqrt (p.sigma i i) * 12 < mean' i - p.mean i) {N : Normal d} (hN : Normal.mk' mean' p.sigma = .ok N) :
    ¬ HoldsMost N.prob1 (fun i => p.mean i - Real.sqrt (p.sigma i i) * 6) fun i => p.mean i + Real.sqrt (p.sigma i i) * 6 := by
  obtain ⟨N', hN', -, hpos, -, -, hi, h1⟩ := C09_normal_density mean' p.sigma hc
  rw [hN] at hN'
  cases hN'
  rintro ⟨-, h⟩
  have hm := normal_boxMass mean' p.sigma hc N hN
  have := boxMass_add_le (fun x => (hpos x).1.le) hi h1 (a := fun i => p.mean i - Real.sqrt (p.sigma i i) * 6)
    (b := fun i => p.mean i + Real.sqrt (p.sigma i i) * 6) (a' := fun i => mean' i - Real.sqrt (p.sigma i i) * 6)
    (b' := fun i => mean' i + Real.sqrt (p.sigma i i) * 6) (by
      rw [Set.disjoint_left]
      intro x hx hx'
      obtain ⟨i, hi⟩ := hfar
      have e1 := hx.2 i
      have e2 := hx'.1 i
      simp only at e1 e2
      linarith)
  rw [h1] at h
  have h2 := exp_neg_eighteen
  have h3 : (d:ℝ) ≤ 16000000 := by exact_mod_cast hd
  have h4 := Real.exp_pos (-18)
  nlinarith

/-- **C124, refuted**. The support of a normal distribution is that of its first moments: after an accepted `set_moments` that
moves the mean by more than twelve standard deviations, and for a second distribution built from the same dictionary
after such a change of `mean`, the support misses almost all of the mass. Exponential distributions of unit means lose more
than half of the mass from dimension 38 on (`C124_partial_exponential`), and for means of `e` or more the reported density
does not even have a finite mass. -/
theorem C124_refuted :
    (∀ (d : ℕ) (p : NormalParams d) (mean' : Fin d → ℝ), p.support = none → p.sigma.PosDef → d ≤ 16000000 →
      (∃ i, Real.sqrt (p.sigma i i) * 12 < mean' i - p.mean i) →
      (∃ S, p.build.1 = .ok S ∧ (S.setMoments mean' p.sigma).2 = none ∧
        ¬ HoldsMost (S.setMoments mean' p.sigma).1.dist.prob1 (S.setMoments mean' p.sigma).1.lo (S.setMoments mean' p.sigma).1.hi) ∧
      (∃ S, { p.build.2 with mean := mean' }.build.1 = .ok S ∧ ¬ HoldsMost S.dist.prob1 S.lo S.hi)) ∧
    (∀ mu : ℝ, Real.exp 1 ≤ mu → ∃ g : (Fin 1 → ℝ) → ℝ,
      (∀ rows, (∃ r ∈ rows, ∀ i, 0 < r i) → (Exponential.build fun _ : Fin 1 => mu).dist.prob (.mat 1 rows) = .ok (rows.map g)) ∧
      ¬ HoldsMost g (Exponential.build fun _ : Fin 1 => mu).lo (Exponential.build fun _ : Fin 1 => mu).hi) := by
  constructor
  · intro d p mean' hs hc hd hfar
    obtain ⟨N, hN, hb⟩ := NormalParams.build_eq hs hc
    obtain ⟨N', hN', -⟩ := C09_normal_density mean' p.sigma hc
    have hst := stale_support hc hd hfar hN'
    rw [hb]
    constructor
    · refine ⟨_, rfl, by simp [Supported.setMoments, Normal.setMoments, hc.det_pos], ?_⟩
      have : (N.setMoments mean' p.sigma).1.prob1 = N'.prob1 := by
        rw [Normal.mk'_eq hc.det_pos] at hN hN'
        cases hN
        cases hN'
        funext x
        simp [Normal.setMoments, hc.det_pos, Normal.prob1, Normal.logProb1]
      simp only [Supported.setMoments]
      rw [this]
      exact hst
    · refine ⟨⟨N', fun i => p.mean i - Real.sqrt (p.sigma i i) * 6, fun i => p.mean i + Real.sqrt (p.sigma i i) * 6⟩, ?_, hst⟩
      simp [NormalParams.build, NormalParams.withSupport, hN', Except.map]
  · intro mu hmu
    have hmu0 : 0 < mu := lt_of_lt_of_le (Real.exp_pos 1) hmu
    refine ⟨Exponential.value fun _ => mu, fun rows h => C74_exponential_partial _ (fun _ => hmu0) rows h, ?_⟩
    rintro ⟨hi, -⟩
    have hlog : 1 + Real.log (1 / mu) ≤ 0 := by
      rw [one_div, Real.log_inv]
      have : 1 ≤ Real.log mu := by rwa [Real.le_log_iff_exp_le hmu0]
      linarith
    have hconst : Integrable (fun x : Fin 1 → ℝ => if ∀ i, 0 < x i then (1:ℝ) else 0) := by
      refine Integrable.mono' hi ?_ (Filter.Eventually.of_forall fun x => ?_)
      · have : MeasurableSet {x : Fin 1 → ℝ | ∀ i, 0 < x i} := by
          simp only [Set.setOf_forall]
          exact MeasurableSet.iInter fun i => measurableSet_lt measurable_const (measurable_pi_apply i)
        exact (Measurable.ite this measurable_const measurable_const).aestronglyMeasurable
      · unfold Exponential.value
        split_ifs with hx
        · rw [norm_one, Real.one_le_exp_iff, ← Finset.sum_neg_distrib]
          refine Finset.sum_nonneg fun i _ => ?_
          have : (1 + Real.log (1 / mu)) / mu ≤ 0 := div_nonpos_of_nonpos_of_nonneg hlog hmu0.le
          nlinarith [hx i]
        · simp
    have hvol : volume {x : Fin 1 → ℝ | ∀ i, 0 < x i} = ⊤ := by
      have : {x : Fin 1 → ℝ | ∀ i, 0 < x i} = Set.univ.pi fun _ => Set.Ioi 0 := by ext; simp
      rw [this, volume_pi_pi]
      simp
    have hms : MeasurableSet {x : Fin 1 → ℝ | ∀ i, 0 < x i} := by
      simp only [Set.setOf_forall]
      exact MeasurableSet.iInter fun i => measurableSet_lt measurable_const (measurable_pi_apply i)
    have h2 : IntegrableOn (fun _ : Fin 1 → ℝ => (1:ℝ)) {x : Fin 1 → ℝ | ∀ i, 0 < x i} := by
      rw [← integrable_indicator_iff hms]
      refine hconst.congr (Filter.Eventually.of_forall fun x => ?_)
      simp [Set.indicator]
    rw [integrableOn_const_iff] at h2
    rcases h2 with h2 | h2
    · norm_num at h2
    · rw [hvol] at h2
      exact lt_irrefl _ h2

/-- The hypotheses hold for a standard normal moved by 13. -/
example : (⟨fun _ => 0, 1, none⟩ : NormalParams 1).sigma.PosDef ∧
    ∃ i, Real.sqrt ((⟨fun _ => 0, 1, none⟩ : NormalParams 1).sigma i i) * 12 < (fun _ : Fin 1 => (13:ℝ)) i - 0 :=
  ⟨Matrix.PosDef.one, 0, by norm_num⟩

end Verif
