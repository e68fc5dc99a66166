import Verif.Proof.AIS
import Verif.Props.Normal
import Mathlib.MeasureTheory.Integral.Pi
import Mathlib.MeasureTheory.Integral.Bochner.ContinuousLinearMap

/-!
# Property C40: deterministic mixture weights are unbiased
-/

set_option linter.unusedSectionVars false
set_option autoImplicit false

namespace Verif

open MeasureTheory

variable {d : ℕ}

/-- The points of a batch given as a finite family, in the form the sampling loop consumes them. -/
def famPts {N k : ℕ} (x : Fin N × Fin k → Fin d → ℝ) : ℕ → ℕ → Fin d → ℝ := fun i j =>
  if h : i < N ∧ j < k then x (⟨i, h.1⟩, ⟨j, h.2⟩) else 0

theorem sum_batch {N k : ℕ} (x : Fin N × Fin k → Fin d → ℝ) (g : (Fin d → ℝ) → ℝ) :
    ((AIS.batch N k (famPts x)).map g).sum = ∑ i : Fin N, ∑ j : Fin k, g (x (i, j)) := by
  unfold AIS.batch
  rw [List.map_flatMap]
  have h1 : ∀ (l : List ℕ) (F : ℕ → List ℝ), (l.flatMap F).sum = (l.map fun i => (F i).sum).sum := by
    intro l F
    induction l with
    | nil => rfl
    | cons a l ih => simp [ih]
  rw [h1, ← List.sum_ofFn]
  congr 1
  apply List.ext_getElem
  · simp
  · intro i hi1 hi2
    simp only [List.length_map, List.length_range] at hi1
    simp only [List.getElem_map, List.getElem_range, List.getElem_ofFn, List.map_map]
    rw [← List.sum_ofFn]
    congr 1
    apply List.ext_getElem
    · simp
    · intro j hj1 hj2
      simp only [List.length_map, List.length_range] at hj1
      simp [famPts, hi1, hj1]

/-- The law of a point drawn from the proposal with density `f`. -/
noncomputable def law (μ : Measure (Fin d → ℝ)) (f : (Fin d → ℝ) → ℝ) : Measure (Fin d → ℝ) :=
  μ.withDensity fun x => ENNReal.ofReal (f x)

theorem mixVal_ofFn {N : ℕ} (qv : (Fin d → ℝ) → (Fin d → ℝ) → ℝ) (c : Fin N → Fin d → ℝ) (x : Fin d → ℝ) :
    mixVal qv (List.ofFn c) N x = (∑ i, qv (c i) x) / N := by
  unfold mixVal
  rw [List.map_ofFn, List.sum_ofFn]
  rfl

section
variable (μ : Measure (Fin d → ℝ)) {N k : ℕ} (c : Fin N → Fin d → ℝ) (qv : (Fin d → ℝ) → (Fin d → ℝ) → ℝ)
  (t f : (Fin d → ℝ) → ℝ)

/-- One proposal: the weighted test function is integrable under the proposal. -/
theorem one_proposal (hN : 0 < N) (hq : ∀ i x, 0 ≤ qv (c i) x) (hqm : ∀ i, Measurable (qv (c i)))
    (htm : Measurable t) (hfm : Measurable f) (hft : Integrable (fun x => f x * t x) μ)
    (hsupp : ∀ x, t x ≠ 0 → ∃ i, 0 < qv (c i) x) (i : Fin N) :
    Integrable (fun x => f x * (t x / mixVal qv (List.ofFn c) N x)) (law μ (qv (c i))) ∧
    ∫ x, f x * (t x / mixVal qv (List.ofFn c) N x) ∂(law μ (qv (c i)))
      = ∫ x, qv (c i) x * (f x * (t x / mixVal qv (List.ofFn c) N x)) ∂μ ∧
    Integrable (fun x => qv (c i) x * (f x * (t x / mixVal qv (List.ofFn c) N x))) μ := by
  have hn : (0 : ℝ) < N := by exact_mod_cast hN
  have hmm : Measurable fun x => mixVal qv (List.ofFn c) N x := by
    simp_rw [mixVal_ofFn]
    exact (Finset.measurable_sum _ fun i _ => hqm i).div_const _
  have hmeas : Measurable fun x => ENNReal.ofReal (qv (c i) x) := (hqm i).ennreal_ofReal
  have hlt : ∀ᵐ x ∂μ, ENNReal.ofReal (qv (c i) x) < ⊤ := Filter.Eventually.of_forall fun x => ENNReal.ofReal_lt_top
  have hI : Integrable (fun x => qv (c i) x * (f x * (t x / mixVal qv (List.ofFn c) N x))) μ := by
    apply Integrable.mono' (hft.norm.const_mul (N : ℝ))
    · exact ((hqm i).mul (hfm.mul (htm.div hmm))).aestronglyMeasurable
    · apply Filter.Eventually.of_forall
      intro x
      by_cases h0 : t x = 0
      · simp [h0]
      · obtain ⟨j, hj⟩ := hsupp x h0
        have hle : qv (c i) x ≤ ∑ i, qv (c i) x := Finset.single_le_sum (fun i _ => hq i x) (Finset.mem_univ i)
        have hpos : 0 < ∑ i, qv (c i) x :=
          lt_of_lt_of_le hj (Finset.single_le_sum (f := fun i => qv (c i) x) (fun i _ => hq i x) (Finset.mem_univ j))
        rw [mixVal_ofFn, norm_mul, norm_mul, norm_div, norm_mul]
        rw [Real.norm_of_nonneg (hq i x), Real.norm_of_nonneg (div_pos hpos hn).le]
        rw [div_div_eq_mul_div]
        have : qv (c i) x / ∑ i, qv (c i) x ≤ 1 := (div_le_one hpos).2 hle
        calc qv (c i) x * (‖f x‖ * (‖t x‖ * N / ∑ i, qv (c i) x))
            = (qv (c i) x / ∑ i, qv (c i) x) * (N * (‖f x‖ * ‖t x‖)) := by ring
          _ ≤ 1 * (N * (‖f x‖ * ‖t x‖)) := by
              apply mul_le_mul_of_nonneg_right this
              positivity
          _ = N * (‖f x‖ * ‖t x‖) := one_mul _
  have hcongr : (fun x => (ENNReal.ofReal (qv (c i) x)).toReal • (f x * (t x / mixVal qv (List.ofFn c) N x)))
      = fun x => qv (c i) x * (f x * (t x / mixVal qv (List.ofFn c) N x)) := by
    funext x
    rw [ENNReal.toReal_ofReal (hq i x), smul_eq_mul]
  refine ⟨?_, ?_, hI⟩
  · unfold law
    rw [integrable_withDensity_iff_integrable_smul' hmeas hlt, hcongr]
    exact hI
  · unfold law
    rw [integral_withDensity_eq_integral_toReal_smul hmeas hlt, hcongr]

/-- **C40** `S` is a DM-AIS or layered AIS state with `N ≥ 1` proposals centred at `c 0, ..., c (N-1)`, whose densities
`qv (c i)` are probability densities with respect to `μ` (any measure), and some proposal is positive wherever the target
`t` is not zero. `K ≥ 1` points are drawn independently from each proposal. Then almost surely all weights the code computes
are numbers, and the expectation of the weighted average of a test function `f` over the batch is `∫ f t dμ`. -/
theorem C40_unbiased (S : AIS ℝ d) (hk : 0 < k) (hN : 0 < N) (hc : S.centers = List.ofFn c)
    (hm : S.modelWeights = List.replicate N (XF.fin (1 / (N : ℝ))))
    (hq : ∀ i x, 0 ≤ qv (c i) x) (hqm : ∀ i, Measurable (qv (c i)))
    (hprob : ∀ i, IsProbabilityMeasure (law μ (qv (c i))))
    (htm : Measurable t) (hfm : Measurable f) (hft : Integrable (fun x => f x * t x) μ)
    (hsupp : ∀ x, t x ≠ 0 → ∃ i, 0 < qv (c i) x) :
    ∃ w : (Fin d → ℝ) → ℝ,
      (∀ᵐ x ∂(Measure.pi fun p : Fin N × Fin k => law μ (qv (c p.1))), ∀ p,
        S.weigh (fun c x => XF.fin (qv c x)) (fun x => XF.fin (t x)) (x p) = XF.fin (w (x p))) ∧
      ∫ x, ((AIS.batch N k (famPts x)).map fun y => f y * w y).sum / ((N * k : ℕ) : ℝ)
        ∂(Measure.pi fun p : Fin N × Fin k => law μ (qv (c p.1))) = ∫ x, f x * t x ∂μ := by
  have hn : (0 : ℝ) < N := by exact_mod_cast hN
  have hk' : (0 : ℝ) < k := by exact_mod_cast hk
  have hone := one_proposal μ c qv t f hN hq hqm htm hfm hft hsupp
  refine ⟨fun x => t x / mixVal qv (List.ofFn c) N x, ?_, ?_⟩
  · rw [ae_all_iff]
    intro p
    have h1 : ∀ᵐ y ∂(law μ (qv (c p.1))), 0 < qv (c p.1) y := by
      unfold law
      rw [ae_withDensity_iff ((hqm p.1).ennreal_ofReal)]
      apply Filter.Eventually.of_forall
      intro y hy
      simpa using hy
    have h2 := (measurePreserving_eval (fun p : Fin N × Fin k => law μ (qv (c p.1))) p).quasiMeasurePreserving.ae h1
    filter_upwards [h2] with x hx
    unfold AIS.weigh
    rw [AIS.prob_fin qv S N (by rw [hc]; simp) hm, hc]
    apply XF.fin_div_ne
    rw [mixVal_ofFn]
    apply ne_of_gt
    apply div_pos _ hn
    exact lt_of_lt_of_le hx
      (Finset.single_le_sum (f := fun i => qv (c i) (x p)) (fun i _ => hq i (x p)) (Finset.mem_univ p.1))
  · simp_rw [sum_batch (fun y => _)]
    rw [integral_div]
    have hsum : ∫ x : Fin N × Fin k → Fin d → ℝ, (∑ i : Fin N, ∑ j : Fin k,
        f (x (i, j)) * (t (x (i, j)) / mixVal qv (List.ofFn c) N (x (i, j))))
        ∂(Measure.pi fun p : Fin N × Fin k => law μ (qv (c p.1)))
        = ∑ i : Fin N, ∑ j : Fin k, ∫ y, f y * (t y / mixVal qv (List.ofFn c) N y) ∂(law μ (qv (c i))) := by
      have hint : ∀ (i : Fin N) (j : Fin k), Integrable (fun x : Fin N × Fin k → Fin d → ℝ =>
          f (x (i, j)) * (t (x (i, j)) / mixVal qv (List.ofFn c) N (x (i, j))))
          (Measure.pi fun p : Fin N × Fin k => law μ (qv (c p.1))) := by
        intro i j
        exact (measurePreserving_eval (fun p : Fin N × Fin k => law μ (qv (c p.1))) (i, j)).integrable_comp_of_integrable
          (hone i).1
      rw [integral_finset_sum _ fun i _ => integrable_finset_sum _ fun j _ => hint i j]
      apply Finset.sum_congr rfl
      intro i _
      rw [integral_finset_sum _ fun j _ => hint i j]
      apply Finset.sum_congr rfl
      intro j _
      have mp := measurePreserving_eval (fun p : Fin N × Fin k => law μ (qv (c p.1))) (i, j)
      have := integral_map (μ := Measure.pi fun p : Fin N × Fin k => law μ (qv (c p.1))) (φ := Function.eval (i, j))
        mp.measurable.aemeasurable (f := fun y => f y * (t y / mixVal qv (List.ofFn c) N y))
        (by rw [mp.map_eq]; exact (hone i).1.aestronglyMeasurable)
      rw [mp.map_eq] at this
      exact this.symm
    rw [hsum]
    have h3 : ∑ i : Fin N, ∑ _j : Fin k, ∫ y, f y * (t y / mixVal qv (List.ofFn c) N y) ∂(law μ (qv (c i)))
        = k * (N * ∫ x, f x * t x ∂μ) := by
      simp only [Finset.sum_const, Finset.card_univ, Fintype.card_fin, nsmul_eq_mul]
      rw [← Finset.mul_sum]
      congr 1
      rw [Finset.sum_congr rfl fun i _ => (hone i).2.1, ← integral_finset_sum _ fun i _ => (hone i).2.2,
        ← integral_const_mul]
      apply integral_congr_ae
      apply Filter.Eventually.of_forall
      intro x
      simp only
      rw [← Finset.sum_mul]
      by_cases h0 : t x = 0
      · simp [h0]
      · obtain ⟨j, hj⟩ := hsupp x h0
        have hpos : 0 < ∑ i, qv (c i) x :=
          lt_of_lt_of_le hj (Finset.single_le_sum (f := fun i => qv (c i) x) (fun i _ => hq i x) (Finset.mem_univ j))
        rw [mixVal_ofFn]
        field_simp
    rw [h3]
    push_cast
    field_simp

end

/-- The normal family of the code satisfies the hypotheses of C40: with covariance `cov` positive definite, the densities
are positive and measurable and are probability densities with respect to Lebesgue measure. -/
theorem C40_normal_proposals (cov : Matrix (Fin d) (Fin d) ℝ) (hc : cov.PosDef) :
    ∃ qv : (Fin d → ℝ) → (Fin d → ℝ) → ℝ, (∀ m, ∃ s, Normal.mk' m cov = .ok s ∧ ∀ x, qv m x = s.prob1 x) ∧
      (∀ m x, 0 < qv m x) ∧ (∀ m, Measurable (qv m)) ∧ ∀ m, IsProbabilityMeasure (law volume (qv m)) := by
  choose s h1 h2 h3 h4 h5 h6 h7 using fun m => C09_normal_density m cov hc
  refine ⟨fun m x => (s m).prob1 x, fun m => ⟨s m, h1 m, fun _ => rfl⟩, fun m x => (h3 m x).1, ?_, ?_⟩
  · intro m
    have : (s m).prob1 = fun x => Real.exp (-(1/2) * ((x - m) ⬝ᵥ (cov⁻¹.mulVec (x - m)))) /
        Real.sqrt ((2 * Real.pi) ^ d * cov.det) := funext (h2 m)
    show Measurable (s m).prob1
    rw [this]
    apply Measurable.div_const
    apply Real.measurable_exp.comp
    apply Measurable.const_mul
    simp only [dotProduct, Matrix.mulVec]
    apply Finset.measurable_sum
    intro i _
    apply Measurable.mul
    · exact ((measurable_pi_apply i).sub_const _)
    · apply Finset.measurable_sum
      intro j _
      exact ((measurable_pi_apply j).sub_const _).const_mul _
  · intro m
    constructor
    unfold law
    rw [withDensity_apply _ MeasurableSet.univ, Measure.restrict_univ,
      ← ofReal_integral_eq_lintegral_ofReal (h6 m) (Filter.Eventually.of_forall fun x => (h3 m x).1.le), h7 m]
    simp

/-- C40 for the proposals the samplers really use, normals with a common positive definite covariance: no hypothesis on the
proposals is left, any measurable target and test function with integrable product are allowed. -/
theorem C40_unbiased_normal {N k : ℕ} (cov : Matrix (Fin d) (Fin d) ℝ) (hcov : cov.PosDef) (c : Fin N → Fin d → ℝ)
    (t f : (Fin d → ℝ) → ℝ) (S : AIS ℝ d) (hk : 0 < k) (hN : 0 < N) (hc : S.centers = List.ofFn c)
    (hm : S.modelWeights = List.replicate N (XF.fin (1 / (N : ℝ))))
    (htm : Measurable t) (hfm : Measurable f) (hft : Integrable (fun x => f x * t x)) :
    ∃ (qv : (Fin d → ℝ) → (Fin d → ℝ) → ℝ) (w : (Fin d → ℝ) → ℝ),
      (∀ m, ∃ s, Normal.mk' m cov = .ok s ∧ ∀ x, qv m x = s.prob1 x) ∧
      (∀ᵐ x ∂(Measure.pi fun p : Fin N × Fin k => law volume (qv (c p.1))), ∀ p,
        S.weigh (fun c x => XF.fin (qv c x)) (fun x => XF.fin (t x)) (x p) = XF.fin (w (x p))) ∧
      ∫ x, ((AIS.batch N k (famPts x)).map fun y => f y * w y).sum / ((N * k : ℕ) : ℝ)
        ∂(Measure.pi fun p : Fin N × Fin k => law volume (qv (c p.1))) = ∫ x, f x * t x := by
  obtain ⟨qv, h1, h2, h3, h4⟩ := C40_normal_proposals cov hcov
  obtain ⟨w, h5, h6⟩ := C40_unbiased volume c qv t f S hk hN hc hm (fun i x => (h2 _ x).le) (fun i => h3 _)
    (fun i => h4 _) htm hfm hft (fun x _ => ⟨⟨0, hN⟩, h2 _ x⟩)
  exact ⟨qv, w, h1, h5, h6⟩

/-- A concrete instance: two proposals in the plane, three points each, the target and test function constant on the unit
square. -/
example : ∃ (qv : (Fin 2 → ℝ) → (Fin 2 → ℝ) → ℝ) (w : (Fin 2 → ℝ) → ℝ),
    ∫ x, ((AIS.batch 2 3 (famPts x)).map fun y => 1 * w y).sum / ((2 * 3 : ℕ) : ℝ)
      ∂(Measure.pi fun p : Fin 2 × Fin 3 => law volume (qv ((fun i _ => (i : ℝ)) p.1)))
      = ∫ x, 1 * (Set.Icc (0 : Fin 2 → ℝ) 1).indicator (fun _ => 1) x := by
  obtain ⟨qv, w, _, _, h⟩ := C40_unbiased_normal (N := 2) (k := 3) (1 : Matrix (Fin 2) (Fin 2) ℝ) Matrix.PosDef.one
    (fun i _ => (i : ℝ)) ((Set.Icc (0 : Fin 2 → ℝ) 1).indicator (fun _ => 1)) (fun _ => 1)
    { centers := List.ofFn (fun (i : Fin 2) (_ : Fin 2) => ((i : ℕ) : ℝ)),
      modelWeights := List.replicate 2 (XF.fin (1 / ((2 : ℕ) : ℝ))), samples := [], weights := [], numPi := 0,
      numQEval := 0, numQ := 0 } (by norm_num) (by norm_num) rfl rfl
    (measurable_const.indicator measurableSet_Icc) measurable_const
    (by
      simp only [one_mul]
      rw [integrable_indicator_iff measurableSet_Icc]
      simp [isCompact_Icc.measure_lt_top])
  exact ⟨qv, w, h⟩

end Verif
