import Mathlib.Probability.Independence.InfinitePi
import Mathlib.Analysis.SpecificLimits.FloorPow
import Mathlib.MeasureTheory.Function.L2Space
import Mathlib.MeasureTheory.Integral.Prod
import Mathlib.Analysis.PSeries

/-!
# A strong law of large numbers for adaptive sampling

A state is updated from independent random inputs, and in each round a number is computed from the state and the input of the
round. If its mean given the state is always `c` and its second moment given the state is bounded, the averages converge to
`c` almost surely.
-/

set_option linter.unusedSectionVars false
set_option autoImplicit false

namespace Verif
namespace Adaptive

open MeasureTheory ProbabilityTheory Filter Topology

variable {Ξ S : Type*}

/-- State before round `n`. -/
def st (step : S → Ξ → S) (s₀ : S) (ω : ℕ → Ξ) : ℕ → S
  | 0 => s₀
  | n + 1 => step (st step s₀ ω n) (ω n)

theorem st_congr (step : S → Ξ → S) (s₀ : S) {ω ω' : ℕ → Ξ} : ∀ n, (∀ k < n, ω k = ω' k) → st step s₀ ω n = st step s₀ ω' n
  | 0, _ => rfl
  | n + 1, h => by
    simp only [st]
    rw [st_congr step s₀ n fun k hk => h k (by omega), h n (by omega)]

variable [MeasurableSpace Ξ] [MeasurableSpace S]

theorem st_measurable {step : S → Ξ → S} (hstep : Measurable (Function.uncurry step)) (s₀ : S) :
    ∀ n, Measurable fun ω : ℕ → Ξ => st step s₀ ω n
  | 0 => measurable_const
  | n + 1 => hstep.comp ((st_measurable hstep s₀ n).prodMk (measurable_pi_apply n))

variable (P : Measure Ξ) [IsProbabilityMeasure P]

/-- The state before a round and the input of the round are independent. -/
theorem law_round {step : S → Ξ → S} (hstep : Measurable (Function.uncurry step)) (s₀ : S) (n : ℕ) :
    (Measure.infinitePi fun _ : ℕ => P).map (fun ω => (st step s₀ ω n, ω n)) =
      ((Measure.infinitePi fun _ : ℕ => P).map fun ω => st step s₀ ω n).prod P := by
  classical
  have hne : Nonempty Ξ := by
    by_contra h
    rw [not_nonempty_iff] at h
    have := measure_univ (μ := P)
    rw [Set.univ_eq_empty_iff.2 h] at this
    simp at this
  let x₀ : Ξ := hne.some
  have hind : iIndepFun (fun (k : ℕ) (ω : ℕ → Ξ) => ω k) (Measure.infinitePi fun _ : ℕ => P) :=
    iIndepFun_infinitePi (X := fun _ u => u) fun _ => measurable_id
  have h1 := hind.indepFun_finset (Finset.range n) {n} (by simp) fun i => measurable_pi_apply i
  let F : (Finset.range n → Ξ) → S := fun p =>
    st step s₀ (fun k => if h : k ∈ Finset.range n then p ⟨k, h⟩ else x₀) n
  have hF : Measurable F := by
    refine (st_measurable hstep s₀ n).comp (measurable_pi_lambda _ fun k => ?_)
    by_cases h : k ∈ Finset.range n
    · simp only [h, dif_pos]; exact measurable_pi_apply _
    · simp only [h, dif_neg, not_false_eq_true]; exact measurable_const
  have h2 := h1.comp hF (measurable_pi_apply (⟨n, by simp⟩ : ({n} : Finset ℕ)))
  have e1 : (F ∘ fun (a : ℕ → Ξ) (i : Finset.range n) => a i) = fun ω => st step s₀ ω n := by
    funext ω
    show st step s₀ _ n = _
    refine st_congr step s₀ n fun k hk => ?_
    simp [hk]
  rw [e1] at h2
  have h3 := h2.map_prod_eq_prod_map_map (st_measurable hstep s₀ n).aemeasurable
    (by exact (measurable_pi_apply n).aemeasurable)
  have e2 : (Measure.infinitePi fun _ : ℕ => P).map ((fun x : ({n} : Finset ℕ) → Ξ => x ⟨n, by simp⟩) ∘
      fun (a : ℕ → Ξ) (i : ({n} : Finset ℕ)) => a i) = P :=
    (measurePreserving_eval_infinitePi (fun _ : ℕ => P) n).map_eq
  rw [e2] at h3
  exact h3

/-- Sum of the numbers of the first `n` rounds. -/
def total (step : S → Ξ → S) (s₀ : S) (D : S → Ξ → ℝ) (ω : ℕ → Ξ) (n : ℕ) : ℝ :=
  ∑ k ∈ Finset.range n, D (st step s₀ ω k) (ω k)

/-- The step of the state extended by the running sum. -/
def stepSum (step : S → Ξ → S) (D : S → Ξ → ℝ) : S × ℝ → Ξ → S × ℝ := fun a ξ => (step a.1 ξ, a.2 + D a.1 ξ)

theorem st_stepSum (step : S → Ξ → S) (s₀ : S) (D : S → Ξ → ℝ) (ω : ℕ → Ξ) (n : ℕ) :
    st (stepSum step D) (s₀, 0) ω n = (st step s₀ ω n, total step s₀ D ω n) := by
  induction n with
  | zero => simp [st, total]
  | succ n ih => simp [st, ih, stepSum, total, Finset.sum_range_succ]

theorem stepSum_measurable {step : S → Ξ → S} (hstep : Measurable (Function.uncurry step)) {D : S → Ξ → ℝ}
    (hD : Measurable (Function.uncurry D)) : Measurable (Function.uncurry (stepSum step D)) := by
  have h1 : Measurable fun p : (S × ℝ) × Ξ => (p.1.1, p.2) :=
    (measurable_fst.comp measurable_fst).prodMk measurable_snd
  refine (hstep.comp h1).prodMk ?_
  exact (measurable_snd.comp measurable_fst).add (hD.comp h1)

theorem total_measurable {step : S → Ξ → S} (hstep : Measurable (Function.uncurry step)) (s₀ : S) {D : S → Ξ → ℝ}
    (hD : Measurable (Function.uncurry D)) (n : ℕ) : Measurable fun ω => total step s₀ D ω n :=
  Finset.measurable_sum _ fun k _ => hD.comp ((st_measurable hstep s₀ k).prodMk (measurable_pi_apply k))

/-- The second moment of the sums grows at most linearly. -/
theorem second_moment {step : S → Ξ → S} (hstep : Measurable (Function.uncurry step)) (s₀ : S) {D : S → Ξ → ℝ}
    (hD : Measurable (Function.uncurry D)) {M : ℝ} (h2 : ∀ s, MemLp (D s) 2 P) (h0 : ∀ s, ∫ ξ, D s ξ ∂P = 0)
    (hM : ∀ s, ∫ ξ, D s ξ ^ 2 ∂P ≤ M) (n : ℕ) :
    MemLp (fun ω => total step s₀ D ω n) 2 (Measure.infinitePi fun _ : ℕ => P) ∧
      ∫ ω, total step s₀ D ω n ^ 2 ∂(Measure.infinitePi fun _ : ℕ => P) ≤ n * M := by
  have hM0 : 0 ≤ M := le_trans (integral_nonneg fun ξ => sq_nonneg _) (hM s₀)
  induction n with
  | zero => simp [total]
  | succ n ih =>
    obtain ⟨ih1, ih2⟩ := ih
    set μ := Measure.infinitePi fun _ : ℕ => P with hμ
    have hmA := st_measurable (stepSum_measurable hstep hD) (s₀, (0 : ℝ)) n
    have hlaw := law_round P (stepSum_measurable hstep hD) (s₀, (0 : ℝ)) n
    set ν := μ.map fun ω => st (stepSum step D) (s₀, (0 : ℝ)) ω n with hν
    have : IsProbabilityMeasure ν := Measure.isProbabilityMeasure_map hmA.aemeasurable
    have hmR : Measurable fun ω : ℕ → Ξ => (st (stepSum step D) (s₀, (0 : ℝ)) ω n, ω n) :=
      hmA.prodMk (measurable_pi_apply n)
    have hDp : Measurable fun p : (S × ℝ) × Ξ => D p.1.1 p.2 :=
      hD.comp ((measurable_fst.comp measurable_fst).prodMk measurable_snd)
    -- the running sum in L2
    have hA : MemLp (fun a : S × ℝ => a.2) 2 ν := by
      rw [hν, memLp_map_measure_iff measurable_snd.aestronglyMeasurable hmA.aemeasurable]
      have e : ((fun a : S × ℝ => a.2) ∘ fun ω => st (stepSum step D) (s₀, (0 : ℝ)) ω n) =
          fun ω => total step s₀ D ω n := by
        funext ω
        simp [st_stepSum]
      rw [e]; exact ih1
    have hA' : MemLp (fun p : (S × ℝ) × Ξ => p.1.2) 2 (ν.prod P) :=
      hA.comp_measurePreserving (measurePreserving_fst (μ := ν) (ν := P))
    have hDsq : Integrable (fun p : (S × ℝ) × Ξ => D p.1.1 p.2 ^ 2) (ν.prod P) := by
      rw [integrable_prod_iff (hDp.pow_const 2).aestronglyMeasurable]
      refine ⟨Eventually.of_forall fun a => (h2 a.1).integrable_sq, ?_⟩
      have hm : Measurable fun a : S × ℝ => ∫ ξ, ‖D a.1 ξ ^ 2‖ ∂P :=
        ((hDp.pow_const 2).norm.stronglyMeasurable.integral_prod_right (ν := P)).measurable
      refine Integrable.of_bound hm.aestronglyMeasurable M (Eventually.of_forall fun a => ?_)
      rw [Real.norm_of_nonneg (integral_nonneg fun ξ => norm_nonneg _)]
      have : ∀ ξ, ‖D a.1 ξ ^ 2‖ = D a.1 ξ ^ 2 := fun ξ => Real.norm_of_nonneg (sq_nonneg _)
      simp_rw [this]
      exact hM a.1
    have hD' : MemLp (fun p : (S × ℝ) × Ξ => D p.1.1 p.2) 2 (ν.prod P) :=
      (memLp_two_iff_integrable_sq hDp.aestronglyMeasurable).2 hDsq
    have hcross : Integrable (fun p : (S × ℝ) × Ξ => p.1.2 * D p.1.1 p.2) (ν.prod P) := hA'.integrable_mul hD'
    have hsum : (fun ω => total step s₀ D ω (n + 1)) = (fun p : (S × ℝ) × Ξ => p.1.2 + D p.1.1 p.2) ∘
        fun ω => (st (stepSum step D) (s₀, (0 : ℝ)) ω n, ω n) := by
      funext ω
      simp [st_stepSum, total, Finset.sum_range_succ]
    have hmp : MeasurePreserving (fun ω : ℕ → Ξ => (st (stepSum step D) (s₀, (0 : ℝ)) ω n, ω n)) μ (ν.prod P) :=
      ⟨hmR, hlaw⟩
    have hL2 : MemLp (fun p : (S × ℝ) × Ξ => p.1.2 + D p.1.1 p.2) 2 (ν.prod P) := hA'.add hD'
    refine ⟨?_, ?_⟩
    · rw [hsum]; exact hL2.comp_measurePreserving hmp
    · have e1 : ∫ ω, total step s₀ D ω (n + 1) ^ 2 ∂μ = ∫ p, (p.1.2 + D p.1.1 p.2) ^ 2 ∂(ν.prod P) := by
        have hm : Measurable fun p : (S × ℝ) × Ξ => (p.1.2 + D p.1.1 p.2) ^ 2 :=
          ((measurable_snd.comp measurable_fst).add hDp).pow_const 2
        rw [← hmp.map_eq, integral_map hmR.aemeasurable hm.aestronglyMeasurable]
        refine integral_congr_ae (Eventually.of_forall fun ω => ?_)
        have := congrFun hsum ω
        simp only [Function.comp] at this
        simp only [this]
      have e2 : ∫ p, (p.1.2 + D p.1.1 p.2) ^ 2 ∂(ν.prod P) =
          ∫ p, p.1.2 ^ 2 ∂(ν.prod P) + 2 * ∫ p, p.1.2 * D p.1.1 p.2 ∂(ν.prod P) + ∫ p, D p.1.1 p.2 ^ 2 ∂(ν.prod P) := by
        have hi : Integrable (fun p : (S × ℝ) × Ξ => p.1.2 ^ 2 + 2 * (p.1.2 * D p.1.1 p.2)) (ν.prod P) :=
          hA'.integrable_sq.add (hcross.const_mul 2)
        rw [← integral_const_mul, ← integral_add hA'.integrable_sq (hcross.const_mul 2), ← integral_add hi hDsq]
        refine integral_congr_ae (Eventually.of_forall fun p => ?_)
        simp only
        ring
      have e3 : ∫ p, p.1.2 * D p.1.1 p.2 ∂(ν.prod P) = 0 := by
        rw [integral_prod _ hcross]
        simp only [integral_const_mul, h0, mul_zero, integral_zero]
      have e4 : ∫ p, D p.1.1 p.2 ^ 2 ∂(ν.prod P) ≤ M := by
        rw [integral_prod _ hDsq]
        calc ∫ a, ∫ ξ, D a.1 ξ ^ 2 ∂P ∂ν ≤ ∫ _, M ∂ν := by
              refine integral_mono hDsq.integral_prod_left (integrable_const M) fun a => hM a.1
          _ = M := by simp
      have e5 : ∫ p : (S × ℝ) × Ξ, p.1.2 ^ 2 ∂(ν.prod P) = ∫ ω, total step s₀ D ω n ^ 2 ∂μ := by
        have hm : Measurable fun p : (S × ℝ) × Ξ => p.1.2 ^ 2 := (measurable_snd.comp measurable_fst).pow_const 2
        rw [← hmp.map_eq, integral_map hmR.aemeasurable hm.aestronglyMeasurable]
        refine integral_congr_ae (Eventually.of_forall fun ω => ?_)
        simp [st_stepSum]
      rw [e1, e2, e3, e5]
      push_cast
      linarith

/-- Along the squares the averages converge to zero almost surely. -/
theorem squares {step : S → Ξ → S} (hstep : Measurable (Function.uncurry step)) (s₀ : S) {D : S → Ξ → ℝ}
    (hD : Measurable (Function.uncurry D)) {M : ℝ} (h2 : ∀ s, MemLp (D s) 2 P) (h0 : ∀ s, ∫ ξ, D s ξ ∂P = 0)
    (hM : ∀ s, ∫ ξ, D s ξ ^ 2 ∂P ≤ M) :
    ∀ᵐ ω ∂(Measure.infinitePi fun _ : ℕ => P),
      Tendsto (fun k : ℕ => total step s₀ D ω ((k + 1) ^ 2) / ((k + 1 : ℕ) : ℝ) ^ 2) atTop (𝓝 0) := by
  set μ := Measure.infinitePi fun _ : ℕ => P with hμ
  have hM0 : 0 ≤ M := le_trans (integral_nonneg fun ξ => sq_nonneg _) (hM s₀)
  have hmom := second_moment P hstep s₀ hD h2 h0 hM
  let g : ℕ → (ℕ → Ξ) → ENNReal := fun k ω =>
    ENNReal.ofReal ((total step s₀ D ω ((k + 1) ^ 2) / ((k + 1 : ℕ) : ℝ) ^ 2) ^ 2)
  have hg : ∀ k, Measurable (g k) := fun k =>
    (((total_measurable hstep s₀ hD _).div_const _).pow_const 2).ennreal_ofReal
  have hle : ∀ k, ∫⁻ ω, g k ω ∂μ ≤ ENNReal.ofReal (M * (1 / ((k + 1 : ℕ) : ℝ) ^ 2)) := by
    intro k
    have hi : Integrable (fun ω => (total step s₀ D ω ((k + 1) ^ 2) / ((k + 1 : ℕ) : ℝ) ^ 2) ^ 2) μ := by
      simp_rw [div_pow]
      exact (hmom _).1.integrable_sq.div_const _
    rw [← ofReal_integral_eq_lintegral_ofReal hi (Eventually.of_forall fun ω => sq_nonneg _)]
    refine ENNReal.ofReal_le_ofReal ?_
    simp_rw [div_pow]
    rw [integral_div]
    have h := (hmom ((k + 1) ^ 2)).2
    have hk : (0 : ℝ) < ((k + 1 : ℕ) : ℝ) := by positivity
    rw [div_le_iff₀ (by positivity)]
    refine h.trans (le_of_eq ?_)
    push_cast at hk ⊢
    field_simp
  have hsum : Summable fun k : ℕ => M * (1 / ((k + 1 : ℕ) : ℝ) ^ 2) := by
    refine Summable.mul_left _ ?_
    exact (summable_nat_add_iff (f := fun k : ℕ => 1 / (k : ℝ) ^ 2) 1).2 (Real.summable_one_div_nat_pow.2 (by norm_num))
  have hfin : ∫⁻ ω, ∑' k, g k ω ∂μ ≠ ⊤ := by
    rw [lintegral_tsum fun k => (hg k).aemeasurable]
    refine ne_top_of_le_ne_top ?_ (ENNReal.tsum_le_tsum hle)
    exact hsum.tsum_ofReal_ne_top
  have hae := ae_lt_top' (Measurable.ennreal_tsum hg).aemeasurable hfin
  filter_upwards [hae] with ω hω
  have ht := ENNReal.tendsto_atTop_zero_of_tsum_ne_top hω.ne
  have h1 : Tendsto (fun k : ℕ => (total step s₀ D ω ((k + 1) ^ 2) / ((k + 1 : ℕ) : ℝ) ^ 2) ^ 2) atTop (𝓝 0) := by
    have := (ENNReal.tendsto_toReal ENNReal.zero_ne_top).comp ht
    simp only [ENNReal.toReal_zero] at this
    refine this.congr fun k => ?_
    simp only [Function.comp, g]
    exact ENNReal.toReal_ofReal (sq_nonneg _)
  rw [tendsto_zero_iff_abs_tendsto_zero]
  have h3 := (Real.continuous_sqrt.tendsto 0).comp h1
  rw [Real.sqrt_zero] at h3
  refine h3.congr fun k => ?_
  simp [Function.comp, Real.sqrt_sq_eq_abs]

/-- **Adaptive strong law.** `X s ξ` is a non-negative number computed in a round from the state `s` and the random input `ξ`.
On a measurable set `R` of states its mean is `c` and its second moment at most `M`. Then almost surely: if the run stays in
`R`, the averages converge to `c`. -/
theorem slln {step : S → Ξ → S} (hstep : Measurable (Function.uncurry step)) (s₀ : S) {X : S → Ξ → ℝ}
    (hX : Measurable (Function.uncurry X)) (hX0 : ∀ s ξ, 0 ≤ X s ξ) {R : Set S} (hR : MeasurableSet R) {c M : ℝ}
    (h2 : ∀ s ∈ R, MemLp (X s) 2 P) (hc : ∀ s ∈ R, ∫ ξ, X s ξ ∂P = c) (hM : ∀ s ∈ R, ∫ ξ, X s ξ ^ 2 ∂P ≤ M) :
    ∀ᵐ ω ∂(Measure.infinitePi fun _ : ℕ => P), (∀ n, st step s₀ ω n ∈ R) →
      Tendsto (fun n : ℕ => total step s₀ X ω n / n) atTop (𝓝 c) := by
  classical
  let D : S → Ξ → ℝ := fun s ξ => if s ∈ R then X s ξ - c else 0
  have hD : Measurable (Function.uncurry D) :=
    Measurable.ite (measurable_fst hR) (hX.sub_const c) measurable_const
  have hD2 : ∀ s, MemLp (D s) 2 P := by
    intro s
    by_cases h : s ∈ R
    · have e : D s = fun ξ => X s ξ - c := by funext ξ; simp [D, h]
      rw [e]
      exact (h2 s h).sub (memLp_const c)
    · have e : D s = fun _ => 0 := by funext ξ; simp [D, h]
      rw [e]
      exact memLp_const 0
  have hD0 : ∀ s, ∫ ξ, D s ξ ∂P = 0 := by
    intro s
    by_cases h : s ∈ R
    · simp only [D, h, if_true]
      rw [integral_sub ((h2 s h).integrable one_le_two) (integrable_const c), hc s h]
      simp
    · simp [D, h]
  have hDM : ∀ s, ∫ ξ, D s ξ ^ 2 ∂P ≤ max M 0 := by
    intro s
    by_cases h : s ∈ R
    · simp only [D, h, if_true]
      have hi := (h2 s h).integrable one_le_two
      have e : ∫ ξ, (X s ξ - c) ^ 2 ∂P = ∫ ξ, X s ξ ^ 2 ∂P - c ^ 2 := by
        have : ∀ ξ, (X s ξ - c) ^ 2 = X s ξ ^ 2 - 2 * c * X s ξ + c ^ 2 := fun ξ => by ring
        simp_rw [this]
        have hj : Integrable (fun ξ => X s ξ ^ 2 - 2 * c * X s ξ) P := (h2 s h).integrable_sq.sub (hi.const_mul _)
        rw [integral_add hj (integrable_const _), integral_sub (h2 s h).integrable_sq (hi.const_mul _), integral_const_mul, hc s h]
        simp
        ring
      rw [e]
      exact le_max_of_le_left (by nlinarith [hM s h, sq_nonneg c])
    · simp [D, h]
  filter_upwards [squares P hstep s₀ hD hD2 hD0 hDM] with ω hω hin
  have htot : ∀ n, total step s₀ X ω n = total step s₀ D ω n + n * c := by
    intro n
    unfold total
    have : ∀ k, D (st step s₀ ω k) (ω k) = X (st step s₀ ω k) (ω k) - c := fun k => by simp [D, hin k]
    simp_rw [this]
    rw [Finset.sum_sub_distrib]
    simp
  refine tendsto_div_of_monotone_of_exists_subseq_tendsto_div _ _ ?_ ?_
  · refine monotone_nat_of_le_succ fun n => ?_
    unfold total
    rw [Finset.sum_range_succ]
    linarith [hX0 (st step s₀ ω n) (ω n)]
  · intro a ha
    refine ⟨fun k => (k + 1) ^ 2, ?_, ?_, ?_⟩
    · have hlim : Tendsto (fun n : ℕ => (((n : ℝ) + 2) / ((n : ℝ) + 1)) ^ 2) atTop (𝓝 1) := by
        have : Tendsto (fun n : ℕ => 1 + 1 / ((n : ℝ) + 1)) atTop (𝓝 (1 + 0)) :=
          tendsto_const_nhds.add tendsto_one_div_add_atTop_nhds_zero_nat
        have h := this.pow 2
        simp only [add_zero, one_pow] at h
        refine h.congr fun n => ?_
        congr 1
        have : (n : ℝ) + 1 ≠ 0 := by positivity
        field_simp
        ring
      filter_upwards [hlim.eventually (eventually_le_nhds ha)] with n hn
      have hp : (0 : ℝ) < (n : ℝ) + 1 := by positivity
      rw [div_pow, div_le_iff₀ (by positivity)] at hn
      push_cast
      linarith
    · refine tendsto_atTop_mono (fun k => ?_) tendsto_id
      show k ≤ (k + 1) ^ 2
      nlinarith
    · have h := hω.add_const c
      rw [zero_add] at h
      refine h.congr fun k => ?_
      rw [htot]
      have : ((k : ℝ) + 1) ≠ 0 := by positivity
      push_cast
      field_simp

end Adaptive
end Verif
