import Verif.Model.Densities
import Verif.Props.Uniform
import Mathlib.Analysis.SpecialFunctions.ImproperIntegrals
import Mathlib.Analysis.SpecialFunctions.Gaussian.GaussianIntegral
import Mathlib.Analysis.Real.Pi.Bounds
import Mathlib.MeasureTheory.Measure.Lebesgue.Integral
import Mathlib.MeasureTheory.Integral.Pi

/-!
# Properties C11, C12, C13, C14, C74: exponential, benchden, banana and kernels
-/

set_option linter.unusedSectionVars false
set_option autoImplicit false

namespace Verif

open MeasureTheory Set Filter Topology

variable {d : ℕ}

/-! ### helper lemmas about masks -/

theorem maskAssign_filter {α : Type*} (p : α → Bool) (f : α → ℝ) (rows : List α) :
    maskAssign p rows ((rows.filter p).map f) = rows.map fun r => if p r then f r else 0 := by
  induction rows with
  | nil => rfl
  | cons r rs ih =>
    by_cases h : p r
    · simp [maskAssign, h, ih]
    · simp [maskAssign, h, ih]

theorem checkShape_mat {rows : List (Fin d → ℝ)} (h : rows ≠ []) : checkShape d (.mat d rows) = .ok rows := by
  cases rows with
  | nil => exact absurd rfl h
  | cons r rs => simp [checkShape]

theorem reshape3_mat (rows : List (Fin d → ℝ)) : reshape3 d (.mat d rows) = .ok rows := by
  cases rows <;> simp [reshape3]

/-! ### C11, C74 exponential -/

/-- The exponential density with independent coordinates of rates `lam`. -/
noncomputable def expDensity (lam x : Fin d → ℝ) : ℝ := if ∀ i, 0 < x i then ∏ i, lam i * Real.exp (-(lam i * x i)) else 0

/-- What `prob` of the exponential distribution evaluates to at a point (see `C74_exponential_partial`). -/
noncomputable def Exponential.value (mean x : Fin d → ℝ) : ℝ :=
  if ∀ i, 0 < x i then Real.exp (-∑ i, (1 + Real.log (1 / mean i)) / mean i * x i) else 0

theorem Exponential.logProb1_eq {mean : Fin d → ℝ} (hm : ∀ i, 0 < mean i) {x : Fin d → ℝ} (hx : ∀ i, 0 < x i) :
    (mk' mean).logProb1 x = -∑ i, (1 + Real.log (1 / mean i)) / mean i * x i := by
  have hp : positiveRow x = true := by simpa [positiveRow] using hx
  simp only [logProb1, hp, if_true, mk']
  rw [← Finset.sum_neg_distrib]
  refine Finset.sum_congr rfl fun i _ => ?_
  have := hm i
  rw [Real.log_mul (by positivity) (Real.exp_pos _).ne', Real.log_exp]
  field_simp
  ring

/-- **C74** (part) A batch with at least one row in the support: every row outside the support gets 0, every row
inside gets `exp` of its `log_prob`. Missing: batches without a row in the support, see `C74_refuted`. -/
theorem C74_exponential_partial (mean : Fin d → ℝ) (hm : ∀ i, 0 < mean i) (rows : List (Fin d → ℝ))
    (h : ∃ r ∈ rows, ∀ i, 0 < r i) :
    (Exponential.mk' mean).prob (.mat d rows) = .ok (rows.map (Exponential.value mean)) := by
  have hne : rows.filter positiveRow ≠ [] := by
    obtain ⟨r, hr, hp⟩ := h
    intro h0
    have : r ∈ rows.filter positiveRow := by simp [List.mem_filter, hr, positiveRow, hp]
    rw [h0] at this
    cases this
  simp only [Exponential.prob, Exponential.logProb, checkShape_mat hne, Except.map, Bind.bind, Except.bind, pure, Except.pure]
  rw [List.map_map, maskAssign_filter]
  congr 1
  refine List.map_congr_left fun x _ => ?_
  by_cases hx : ∀ i, 0 < x i
  · simp [positiveRow, hx, Exponential.value, Exponential.logProb1_eq hm hx]
  · simp [positiveRow, hx, Exponential.value]

/-- A batch with one row inside and one outside the support. -/
example : ∃ r ∈ [![-1, 2], ![(1:ℝ), 2]], ∀ i : Fin 2, 0 < r i :=
  ⟨![1, 2], by simp, by intro i; fin_cases i <;> simp⟩

/-- **C74, refuted** for the exponential: a batch all of whose rows are outside the support raises IndexError instead of
returning zeros, for every mean and every such batch. -/
theorem C74_refuted (mean : Fin d → ℝ) (rows : List (Fin d → ℝ)) (h : ∀ r ∈ rows, ¬ ∀ i, 0 < r i) :
    (Exponential.mk' mean).prob (.mat d rows) = .error .index := by
  have hf : rows.filter positiveRow = [] := by
    rw [List.filter_eq_nil_iff]
    intro r hr
    simpa [positiveRow] using h r hr
  simp [Exponential.prob, Exponential.logProb, hf, checkShape, Except.map, Bind.bind, Except.bind]

/-- The hypothesis holds for the non empty batch `[(-1)]`. -/
example : (Exponential.mk' (fun _ : Fin 1 => 1)).prob (.mat 1 [fun _ => -1]) = .error .index :=
  C74_refuted _ _ (by simp)

theorem integral_fin_one (f : ℝ → ℝ) : ∫ x : Fin 1 → ℝ, f (x 0) = ∫ t, f t := by
  exact (volume_preserving_funUnique (Fin 1) ℝ).integral_comp (MeasurableEquiv.measurableEmbedding _) f

theorem integral_fin_one' (f : (Fin 1 → ℝ) → ℝ) : ∫ x : Fin 1 → ℝ, f x = ∫ t, f (fun _ => t) := by
  rw [← integral_fin_one]
  congr 1
  funext x
  congr 1
  funext i
  fin_cases i; rfl

/-- Integral of `exp (-a x)` over the positive half line: `1/a` when `a > 0`; not 1 when `a ≤ 0`
(the function is not integrable and the Bochner integral is 0). -/
theorem integral_half_line (a : ℝ) :
    (∫ t : ℝ, if 0 < t then Real.exp (-(a * t)) else 0) = if 0 < a then 1 / a else 0 := by
  have h1 : (∫ t : ℝ, if 0 < t then Real.exp (-(a * t)) else 0) = ∫ t in Ioi (0:ℝ), Real.exp ((-a) * t) := by
    rw [← integral_indicator measurableSet_Ioi]
    congr 1
    funext t
    simp [indicator]
  rw [h1]
  split_ifs with ha
  · rw [integral_exp_mul_Ioi (by linarith)]
    simp
  · apply integral_undef
    intro hi
    have hi' : IntegrableOn (fun _ : ℝ => (1:ℝ)) (Ioi 0) := by
      refine Integrable.mono' hi (by fun_prop) ?_
      refine (ae_restrict_iff' measurableSet_Ioi).2 (Eventually.of_forall fun t ht => ?_)
      have ht : 0 < t := ht
      simp only [norm_one]
      rw [Real.one_le_exp_iff]
      push Not at ha
      nlinarith
    rw [integrableOn_const_iff] at hi'
    simp at hi'

theorem value_fin_one (mu : ℝ) (t : ℝ) : Exponential.value (fun _ : Fin 1 => mu) (fun _ => t) =
    if 0 < t then Real.exp (-((1 + Real.log (1 / mu)) / mu * t)) else 0 := by
  simp [Exponential.value]

/-- **C11, refuted**: in dimension 1 the function evaluated by `prob` (`C74_exponential_partial`) integrates to 1 for the
mean 1 and for no other mean; moreover `log_prob` is 0 at the points where `prob` is 0. -/
theorem C11_refuted :
    (∀ mu : ℝ, 0 < mu → ((∫ x, Exponential.value (fun _ : Fin 1 => mu) x = 1) ↔ mu = 1)) ∧
    (∀ (mean x : Fin d → ℝ), (¬ ∀ i, 0 < x i) → (Exponential.mk' mean).logProb1 x = 0 ∧ Exponential.value mean x = 0) := by
  constructor
  · intro mu hmu
    rw [integral_fin_one']
    simp_rw [value_fin_one]
    rw [integral_half_line]
    constructor
    · intro h
      split_ifs at h with ha
      · rw [one_div_div, div_eq_one_iff_eq (by
          intro h0; rw [h0] at ha; simp at ha)] at h
        rw [one_div, Real.log_inv] at h
        by_contra hne
        have := Real.log_lt_sub_one_of_pos hmu hne
        have h2 := Real.log_lt_sub_one_of_pos (inv_pos.2 hmu) (by
          intro h1; apply hne; rw [inv_eq_one] at h1; exact h1)
        rw [Real.log_inv] at h2
        -- `mu = 1 - log mu` has the single root 1 because `mu + log mu` is increasing
        rcases lt_or_gt_of_ne hne with h3 | h3
        · have := Real.log_neg hmu h3; linarith
        · have := Real.log_pos h3; linarith
      · norm_num at h
    · rintro rfl
      norm_num
  · intro mean x hx
    simp [Exponential.logProb1, Exponential.value, positiveRow, hx]

/-- **C11** (part) With unit means (the case used by the benchden suite, in any dimension) the function evaluated by
`prob` is the exponential density of rate 1, it integrates to 1 and decreases in every coordinate on the support, and
`log_prob` is its logarithm on the support. Missing: other means and points outside the support, see `C11_refuted`. -/
theorem C11_partial :
    (∀ x : Fin d → ℝ, Exponential.value (fun _ => 1) x = expDensity (fun _ => 1) x) ∧
    (∀ x y : Fin d → ℝ, (∀ i, 0 < x i) → (∀ i, x i ≤ y i) → x ≠ y →
      Exponential.value (fun _ => 1) y < Exponential.value (fun _ => 1) x) ∧
    (∀ x : Fin d → ℝ, (∀ i, 0 < x i) →
      (Exponential.mk' fun _ => 1).logProb1 x = Real.log (expDensity (fun _ => 1) x)) ∧
    Integrable (fun x : Fin d → ℝ => Exponential.value (fun _ => 1) x) ∧
    ∫ x : Fin d → ℝ, Exponential.value (fun _ => 1) x = 1 := by
  have h1 : ∀ x : Fin d → ℝ, Exponential.value (fun _ => 1) x = expDensity (fun _ => 1) x := by
    intro x
    by_cases hx : ∀ i, 0 < x i
    · simp [Exponential.value, expDensity, hx, ← Real.exp_sum]
    · simp [Exponential.value, expDensity, hx]
  have hint : ∫ x : Fin d → ℝ, Exponential.value (fun _ => 1) x = 1 := by
    have h2 : ∀ x : Fin d → ℝ, Exponential.value (fun _ => 1) x =
        ∏ i, (fun t : ℝ => if 0 < t then Real.exp (-(1 * t)) else 0) (x i) := by
      intro x
      rw [h1]
      unfold expDensity
      split_ifs with hx
      · refine Finset.prod_congr rfl fun i _ => ?_
        simp [hx i]
      · push Not at hx
        obtain ⟨i, hi⟩ := hx
        symm
        apply Finset.prod_eq_zero (Finset.mem_univ i)
        simp [not_lt.2 hi]
    simp_rw [h2]
    rw [integral_fintype_prod_volume_eq_prod
      (fun (_ : Fin d) => fun t : ℝ => if 0 < t then Real.exp (-(1 * t)) else 0)]
    simp only [integral_half_line]
    simp
  refine ⟨h1, ?_, ?_, integrable_of_integral_eq_one hint, hint⟩
  · intro x y hx hxy hne
    have hy : ∀ i, 0 < y i := fun i => (hx i).trans_le (hxy i)
    simp only [Exponential.value, hx, hy, implies_true, if_true]
    apply Real.exp_lt_exp.2
    apply neg_lt_neg
    obtain ⟨j, hj⟩ : ∃ j, x j ≠ y j := by
      by_contra h
      push Not at h
      exact hne (funext h)
    apply Finset.sum_lt_sum
    · intro i _
      simpa using hxy i
    · exact ⟨j, Finset.mem_univ j, by simpa using lt_of_le_of_ne (hxy j) hj⟩
  · intro x hx
    rw [← h1, Exponential.logProb1_eq (by simp) hx]
    simp [Exponential.value, hx]

/-! ### C12, C13 -/

/-- The Maxwell density of the benchden suite, `x exp(-x²/2)` on the positive half line. -/
noncomputable def maxwellDensity (x : ℝ) : ℝ := if 0 < x then x * Real.exp (-(x ^ 2 / 2)) else 0

/-- The Laplace density. -/
noncomputable def laplaceDensity (x : ℝ) : ℝ := 1 / 2 * Real.exp (-|x|)

/-- The symmetric Pareto density. -/
noncomputable def paretoDensity (x : ℝ) : ℝ := (4 * (1 + |x|) ^ (3/2 : ℝ))⁻¹

/-- The un-normalised banana density of Lu et al. -/
noncomputable def bananaDensity (x y : ℝ) : ℝ := Real.exp (-((3/100) * x ^ 2 + (y + (3/100) * (x ^ 2 - 100)) ^ 2) / 2)

theorem positiveRow_one (r : Fin 1 → ℝ) : positiveRow r = decide (0 < r 0) := by
  simp [positiveRow, Fin.forall_fin_one]

theorem maxwell_logProb1_pos {r : Fin 1 → ℝ} (h : 0 < r 0) : Maxwell.logProb1 r = Real.log (maxwellDensity (r 0)) := by
  simp only [Maxwell.logProb1, positiveRow_one, h, decide_true, if_true, maxwellDensity, Fin.sum_univ_one]
  rw [Real.log_mul h.ne' (Real.exp_pos _).ne', Real.log_exp]
  ring

/-- **C74** for the Maxwell density: every batch of one column, including batches with no row in the support and the empty
batch, is evaluated to the density, which is 0 outside the support. -/
theorem C74_maxwell (rows : List (Fin 1 → ℝ)) :
    Maxwell.prob (.mat 1 rows) = .ok (rows.map fun r => maxwellDensity (r 0)) := by
  simp only [Maxwell.prob, Maxwell.logProb, reshape3_mat, Except.map, Bind.bind, Except.bind, pure, Except.pure]
  rw [List.map_map, maskAssign_filter]
  congr 1
  refine List.map_congr_left fun r _ => ?_
  by_cases h : 0 < r 0
  · have hpos : 0 < maxwellDensity (r 0) := by simp only [maxwellDensity, h, if_true]; positivity
    simp [positiveRow_one, h, maxwell_logProb1_pos h, Real.exp_log hpos]
  · simp [positiveRow_one, h, maxwellDensity]

/-- **C12** (part) At every point of the Laplace, Pareto and banana densities, and at every point of the support of the
Maxwell density, `prob` is the documented density and `log_prob` its logarithm. Missing: points outside the support of
the Maxwell and exponential densities, see `C12_refuted` (for the uniform density see `C06_uniform_density`). -/
theorem C12_partial :
    (∀ rows : List (Fin 1 → ℝ),
      Laplace.prob (.mat 1 rows) = .ok (.mat 1 (rows.map fun r _ => laplaceDensity (r 0))) ∧
      Laplace.logProb (.mat 1 rows) = .ok (.mat 1 (rows.map fun r _ => Real.log (laplaceDensity (r 0))))) ∧
    (∀ rows : List (Fin 1 → ℝ), rows ≠ [] →
      Pareto.prob (.mat 1 rows) = .ok (rows.map fun r => paretoDensity (r 0)) ∧
      Pareto.logProb (.mat 1 rows) = .ok (rows.map fun r => XF.fin (Real.log (paretoDensity (r 0))))) ∧
    (∀ rows : List (Fin 2 → ℝ),
      Banana.prob (.mat 2 rows) = .ok (rows.map fun r => bananaDensity (r 0) (r 1)) ∧
      Banana.logProb (.mat 2 rows) = .ok (rows.map fun r => Real.log (bananaDensity (r 0) (r 1)))) ∧
    (∀ rows : List (Fin 1 → ℝ), (∀ r ∈ rows, 0 < r 0) →
      Maxwell.prob (.mat 1 rows) = .ok (rows.map fun r => maxwellDensity (r 0)) ∧
      Maxwell.logProb (.mat 1 rows) = .ok (rows.map fun r => Real.log (maxwellDensity (r 0)))) := by
  refine ⟨fun rows => ?_, fun rows hne => ?_, fun rows => ?_, fun rows hpos => ?_⟩
  · have hl : ∀ r : Fin 1 → ℝ, Laplace.logProb1 r = Real.log (laplaceDensity (r 0)) := by
      intro r
      simp only [Laplace.logProb1, laplaceDensity, Fin.sum_univ_one]
      rw [Real.log_mul (by norm_num) (Real.exp_pos _).ne', Real.log_exp]
      rfl
    have hp : ∀ x, 0 < laplaceDensity x := fun x => by unfold laplaceDensity; positivity
    simp [Laplace.prob, Laplace.logProb, reshape3_mat, Except.map, hl, Real.exp_log (hp _)]
  · have hp : ∀ x, Pareto.density x = paretoDensity x := by
      intro x; simp [Pareto.density, paretoDensity]
    have hpos : ∀ x, 0 < paretoDensity x := fun x => by unfold paretoDensity; positivity
    simp [Pareto.prob, Pareto.logProb, checkShape_mat hne, Except.map, hp, XF.log, not_lt.2 (hpos _).le, (hpos _).ne']
  · have hl : ∀ r : Fin 2 → ℝ, Banana.logdensity (r 0) (r 1) = Real.log (bananaDensity (r 0) (r 1)) := by
      intro r
      simp only [Banana.logdensity, bananaDensity, Real.log_exp]
      ring
    have hpos : ∀ x y, 0 < bananaDensity x y := fun x y => Real.exp_pos _
    simp [Banana.prob, Banana.logProb, reshape3_mat, Except.map, hl, Real.exp_log (hpos _ _)]
  · refine ⟨C74_maxwell rows, ?_⟩
    simp only [Maxwell.logProb, reshape3_mat, Except.map]
    congr 1
    exact List.map_congr_left fun r hr => maxwell_logProb1_pos (hpos r hr)

/-- The positivity hypothesis of the Maxwell part holds for a batch of two points. -/
example : ∀ r ∈ [fun _ : Fin 1 => (1:ℝ), fun _ => 2], 0 < r 0 := by simp

/-- **C12, refuted**: outside the support the Maxwell density evaluates to 0 and its `log_prob` to 0, so
`exp(log_prob) = 1` differs from `prob`, at every point `x ≤ 0`. -/
theorem C12_refuted (x : Fin 1 → ℝ) (hx : x 0 ≤ 0) :
    Maxwell.prob (.mat 1 [x]) = .ok [0] ∧ Maxwell.logProb (.mat 1 [x]) = .ok [0] := by
  constructor
  · rw [C74_maxwell]
    simp [maxwellDensity, not_lt.2 hx]
  · simp [Maxwell.logProb, reshape3_mat, Except.map, Maxwell.logProb1, positiveRow_one, not_lt.2 hx]

/-- Such points exist. -/
example : (fun _ : Fin 1 => (-1:ℝ)) 0 ≤ 0 := by norm_num

theorem integral_laplace : ∫ x, laplaceDensity x = 1 := by
  unfold laplaceDensity
  rw [integral_const_mul, integral_comp_abs (f := fun x => Real.exp (-x)), integral_exp_neg_Ioi_zero]
  norm_num

theorem integral_maxwell : ∫ x, maxwellDensity x = 1 := by
  have h1 : (∫ x, maxwellDensity x) = ∫ x in Ioi (0:ℝ), x * Real.exp (-(x ^ 2 / 2)) := by
    rw [← integral_indicator measurableSet_Ioi]
    congr 1
  rw [h1, integral_Ioi_of_hasDerivAt_of_nonneg' (g := fun x => -Real.exp (-(x ^ 2 / 2))) (l := 0)]
  · simp
  · intro x _
    have h2 : HasDerivAt (fun x : ℝ => -(x ^ 2 / 2)) (-x) x := by
      have := ((hasDerivAt_pow 2 x).div_const 2).neg
      exact this.congr_deriv (by norm_num)
    exact h2.exp.neg.congr_deriv (by ring)
  · intro x hx
    have : 0 < x := hx
    positivity
  · rw [← neg_zero]
    apply Tendsto.neg
    apply Real.tendsto_exp_neg_atTop_nhds_zero.comp
    exact (tendsto_pow_atTop two_ne_zero).atTop_div_const (by norm_num)

theorem integral_pareto : ∫ x, paretoDensity x = 1 := by
  unfold paretoDensity
  rw [integral_comp_abs (f := fun x : ℝ => (4 * (1 + x) ^ (3/2 : ℝ))⁻¹)]
  have h1 : ∫ x in Ioi (0:ℝ), (4 * (1 + x) ^ (3/2 : ℝ))⁻¹ = ∫ x in Ioi (0:ℝ), (1/4) * (1 + x) ^ (-3/2 : ℝ) := by
    refine setIntegral_congr_fun measurableSet_Ioi fun x hx => ?_
    have hx : 0 < x := hx
    show (4 * (1 + x) ^ (3/2 : ℝ))⁻¹ = (1/4) * (1 + x) ^ (-3/2 : ℝ)
    rw [mul_inv, ← Real.rpow_neg (by positivity)]
    norm_num
  have h2 : ∫ x in Ioi (0:ℝ), (1 + x) ^ (-3/2 : ℝ) = ∫ x in Ioi (1:ℝ), x ^ (-3/2 : ℝ) := by
    rw [← integral_indicator measurableSet_Ioi, ← integral_indicator measurableSet_Ioi,
      ← integral_add_left_eq_self (μ := volume) (fun x => (Ioi (1:ℝ)).indicator (fun x : ℝ => x ^ (-3/2 : ℝ)) x) 1]
    congr 1
    funext x
    simp [indicator]
  rw [h1, integral_const_mul, h2, integral_Ioi_rpow_of_lt (by norm_num) one_pos]
  norm_num

/-- **C13** (part) The Laplace, Maxwell and symmetric Pareto densities, which are what the code evaluates (`C12_partial`,
`C74_maxwell`), are nonnegative and integrate to 1. Missing: the benchden uniform, see `C13_refuted`. -/
theorem C13_partial :
    (∀ x, 0 ≤ laplaceDensity x) ∧ Integrable laplaceDensity ∧ ∫ x, laplaceDensity x = 1 ∧
    (∀ x, 0 ≤ maxwellDensity x) ∧ Integrable maxwellDensity ∧ ∫ x, maxwellDensity x = 1 ∧
    (∀ x, 0 ≤ paretoDensity x) ∧ Integrable paretoDensity ∧ ∫ x, paretoDensity x = 1 := by
  refine ⟨fun x => ?_, integrable_of_integral_eq_one integral_laplace, integral_laplace, fun x => ?_,
    integrable_of_integral_eq_one integral_maxwell, integral_maxwell, fun x => ?_,
    integrable_of_integral_eq_one integral_pareto, integral_pareto⟩
  · unfold laplaceDensity; positivity
  · unfold maxwellDensity
    split_ifs with h
    · positivity
    · rfl
  · unfold paretoDensity; positivity

/-- **C13** The benchden exponential: a batch with a positive row gets `exp (-x)` at the positive rows and 0 elsewhere, and
that function integrates to 1. (A batch without a positive row raises, see `C74_refuted`.) -/
theorem C13_exponential :
    (∀ rows : List (Fin 1 → ℝ), (∃ r ∈ rows, 0 < r 0) →
      benchDenExponential.prob (.mat 1 rows) = .ok (rows.map fun r => if 0 < r 0 then Real.exp (-r 0) else 0)) ∧
    ∫ t : ℝ, (if 0 < t then Real.exp (-t) else 0) = 1 := by
  constructor
  · intro rows h
    refine (C74_exponential_partial (fun _ => 1) (by simp) rows (by simpa [Fin.forall_fin_one] using h)).trans ?_
    congr 1
    refine List.map_congr_left fun r _ => ?_
    have : r = fun _ => r 0 := by funext i; fin_cases i; rfl
    rw [this, value_fin_one]
    simp
  · simpa using integral_half_line 1

example : ∃ r ∈ ([![-1], ![2]] : List (Fin 1 → ℝ)), 0 < r 0 := ⟨![2], by simp, by simp⟩

/-- **C13, refuted** for the benchden uniform: the distribution built is uniform on `(-1/2, 3/2]` with density 1/2; it is
not the uniform density of `[0, 1]` that the class documents, e.g. at 1/2 and at 5/4. -/
theorem C13_refuted : ∃ U, benchDenUniform = .ok U ∧
    (∀ x, U.prob1 x = if -(1/2) < x 0 ∧ x 0 ≤ 3/2 then .fin (1/2) else .fin 0) ∧
    U.prob1 (fun _ => 1/2) ≠ .fin 1 ∧ U.prob1 (fun _ => 5/4) ≠ .fin 0 := by
  have h : ∃ U, benchDenUniform = .ok U ∧
    (∀ x, U.prob1 x = if -(1/2) < x 0 ∧ x 0 ≤ 3/2 then .fin (1/2) else .fin 0) := by
    refine ⟨_, rfl, fun x => ?_⟩
    simp only [Uniform.prob1, Uniform.inlier, Uniform.probVal, Fin.forall_fin_one]
    rw [XF.fin_div_ne _ _ (by norm_num)]
    norm_num
  obtain ⟨U, hU, hp⟩ := h
  refine ⟨U, hU, hp, ?_, ?_⟩ <;> rw [hp] <;> norm_num

/-! ### C14 kernels -/

theorem integral_kernel (k : ℝ → ℝ) (loc bw : ℝ) (hb : 0 < bw) :
    ∫ x, (Kernel.mk k loc bw).prob x = ∫ u, k u := by
  unfold Kernel.prob
  rw [integral_mul_const]
  have h1 := integral_sub_right_eq_self (μ := volume) (fun y => k (y * bw)) loc
  rw [h1, Measure.integral_comp_mul_right, abs_of_pos (inv_pos.2 hb), smul_eq_mul]
  field_simp

theorem integral_unit_kernel (k g : ℝ → ℝ) (h : ∀ u, k u = if u < -1 ∨ u > 1 then 0 else g u) :
    ∫ u, k u = ∫ u in (-1:ℝ)..1, g u := by
  have h1 : k = (Icc (-1:ℝ) 1).indicator g := by
    funext u
    rw [h]
    by_cases hu : u ∈ Icc (-1:ℝ) 1
    · rw [indicator_of_mem hu, if_neg]
      rintro (h1 | h1)
      · exact absurd hu.1 (not_le.2 h1)
      · exact absurd hu.2 (not_le.2 h1)
    · rw [indicator_of_notMem hu, if_pos]
      by_contra hc
      push Not at hc
      exact hu ⟨hc.1, hc.2⟩
  rw [h1, integral_indicator measurableSet_Icc, integral_Icc_eq_integral_Ioc,
    ← intervalIntegral.integral_of_le (by norm_num)]

theorem integral_uniform_kernel : ∫ u, Kernel.uniform u = 1 := by
  rw [integral_unit_kernel Kernel.uniform (fun _ => 1 * 0.5) (fun u => rfl)]
  norm_num

theorem integral_epanechnikov_kernel : ∫ u, Kernel.epanechnikov u = 1 := by
  rw [integral_unit_kernel Kernel.epanechnikov (fun u => 0.75 * (1 - u * u)) (fun u => rfl)]
  rw [intervalIntegral.integral_const_mul, intervalIntegral.integral_sub (by simp) (by
    apply Continuous.intervalIntegrable; fun_prop)]
  have : ∫ u in (-1:ℝ)..1, u * u = 2 / 3 := by
    have h := integral_pow (a := (-1:ℝ)) (b := 1) 2
    simp_rw [sq] at h
    rw [h]; norm_num
  rw [this]
  norm_num

theorem integral_triangular_kernel : ∫ u, Kernel.triangular u = 1 := by
  rw [integral_unit_kernel Kernel.triangular (fun u => 1 - |u|) (fun u => rfl)]
  have hc : Continuous fun u : ℝ => 1 - |u| := by fun_prop
  rw [← intervalIntegral.integral_add_adjacent_intervals (b := 0) (hc.intervalIntegrable _ _) (hc.intervalIntegrable _ _)]
  have h1 : ∫ u in (-1:ℝ)..0, (1 - |u|) = ∫ u in (-1:ℝ)..0, (1 + u) := by
    refine intervalIntegral.integral_congr fun u hu => ?_
    rw [uIcc_of_le (by norm_num)] at hu
    simp [abs_of_nonpos hu.2]
  have h2 : ∫ u in (0:ℝ)..1, (1 - |u|) = ∫ u in (0:ℝ)..1, (1 - u) := by
    refine intervalIntegral.integral_congr fun u hu => ?_
    rw [uIcc_of_le (by norm_num)] at hu
    simp [abs_of_nonneg hu.1]
  rw [h1, h2, intervalIntegral.integral_add (by simp) (by simp), intervalIntegral.integral_sub (by simp) (by simp)]
  simp
  norm_num

/-- **C14** The uniform, triangular and Epanechnikov kernels at any location with any positive bandwidth parameter are
nonnegative, symmetric about the location, zero at distance more than `1/bw` and positive at smaller distance, and
integrate to 1. -/
theorem C14_kernels (loc bw : ℝ) (hb : 0 < bw) (k : ℝ → ℝ)
    (hk : k = Kernel.uniform ∨ k = Kernel.triangular ∨ k = Kernel.epanechnikov) :
    (∀ x, 0 ≤ (Kernel.mk k loc bw).prob x) ∧
    (∀ t, (Kernel.mk k loc bw).prob (loc + t) = (Kernel.mk k loc bw).prob (loc - t)) ∧
    (∀ x, 1 / bw < |x - loc| → (Kernel.mk k loc bw).prob x = 0) ∧
    (∀ x, |x - loc| < 1 / bw → 0 < (Kernel.mk k loc bw).prob x) ∧
    Integrable (Kernel.mk k loc bw).prob ∧ ∫ x, (Kernel.mk k loc bw).prob x = 1 := by
  have hcore : (∀ u, 0 ≤ k u) ∧ (∀ u, k (-u) = k u) ∧ (∀ u, 1 < |u| → k u = 0) ∧ (∀ u, |u| < 1 → 0 < k u) ∧
      ∫ u, k u = 1 := by
    have hout : ∀ u : ℝ, (u < -1 ∨ u > 1) ↔ 1 < |u| := by
      intro u
      rw [lt_abs]
      constructor
      · rintro (h | h)
        · right; linarith
        · left; exact h
      · rintro (h | h)
        · right; exact h
        · left; linarith
    rcases hk with rfl | rfl | rfl
    · refine ⟨fun u => ?_, fun u => ?_, fun u h => ?_, fun u h => ?_, integral_uniform_kernel⟩ <;>
        simp only [Kernel.uniform, hout, abs_neg]
      · split_ifs <;> norm_num
      · simp [h]
      · rw [if_neg (not_lt.2 h.le)]; norm_num
    · refine ⟨fun u => ?_, fun u => ?_, fun u h => ?_, fun u h => ?_, integral_triangular_kernel⟩ <;>
        simp only [Kernel.triangular, hout, abs_neg]
      · split_ifs with h
        · rfl
        · linarith
      · simp [h]
      · rw [if_neg (not_lt.2 h.le)]; linarith
    · refine ⟨fun u => ?_, fun u => ?_, fun u h => ?_, fun u h => ?_, integral_epanechnikov_kernel⟩ <;>
        simp only [Kernel.epanechnikov, hout, abs_neg]
      · split_ifs with h
        · rfl
        · have := abs_mul_abs_self u
          nlinarith [abs_nonneg u]
      · split_ifs
        · rfl
        · ring
      · simp [h]
      · rw [if_neg (not_lt.2 h.le)]
        have := abs_mul_abs_self u
        nlinarith [abs_nonneg u]
  obtain ⟨c1, c2, c3, c4, c5⟩ := hcore
  have hint : ∫ x, (Kernel.mk k loc bw).prob x = 1 := by rw [integral_kernel _ _ _ hb, c5]
  refine ⟨fun x => mul_nonneg (c1 _) hb.le, fun t => ?_, fun x hx => ?_, fun x hx => ?_,
    integrable_of_integral_eq_one hint, hint⟩
  · simp only [Kernel.prob]
    rw [← c2]
    congr 2
    ring
  · simp only [Kernel.prob]
    rw [c3, zero_mul]
    rw [abs_mul, abs_of_pos hb]
    rwa [div_lt_iff₀ hb] at hx
  · simp only [Kernel.prob]
    apply mul_pos (c4 _ _) hb
    rw [abs_mul, abs_of_pos hb]
    rwa [lt_div_iff₀ hb] at hx

/-- **C14** for the normal kernel: positive, symmetric, and its integral differs from 1 by less than `1e-11` (the
constant 0.3989422804 is a rounding of `1/sqrt(2π)`), for every location and bandwidth. -/
theorem C14_normal_kernel (loc bw : ℝ) (hb : 0 < bw) :
    (∀ x, 0 < (Kernel.mk Kernel.normal loc bw).prob x) ∧
    (∀ t, (Kernel.mk Kernel.normal loc bw).prob (loc + t) = (Kernel.mk Kernel.normal loc bw).prob (loc - t)) ∧
    |(∫ x, (Kernel.mk Kernel.normal loc bw).prob x) - 1| < 1e-11 := by
  have hpos : ∀ u, 0 < Kernel.normal u := fun u => by unfold Kernel.normal; positivity
  refine ⟨fun x => mul_pos (hpos _) hb, fun t => ?_, ?_⟩
  · simp only [Kernel.prob, Kernel.normal]
    ring_nf
  · rw [integral_kernel _ _ _ hb]
    have h1 : ∫ u, Kernel.normal u = 0.3989422804 * Real.sqrt (2 * Real.pi) := by
      unfold Kernel.normal
      rw [integral_const_mul]
      congr 1
      have := integral_gaussian (1/2)
      rw [show Real.pi / (1/2) = 2 * Real.pi by ring] at this
      rw [← this]
      congr 1
      funext u
      congr 1
      ring
    rw [h1]
    have hp1 := Real.pi_gt_d20
    have hp2 := Real.pi_lt_d20
    have hs1 : 2.50662827463 < Real.sqrt (2 * Real.pi) := by
      apply Real.lt_sqrt_of_sq_lt
      norm_num at hp1 ⊢
      linarith
    have hs2 : Real.sqrt (2 * Real.pi) < 2.50662827464 := by
      rw [Real.sqrt_lt' (by norm_num)]
      norm_num at hp2 ⊢
      linarith
    rw [abs_lt]
    norm_num at hs1 hs2 ⊢
    constructor <;> linarith

end Verif
