import Verif.Props.Convergence
import Mathlib.Analysis.SpecialFunctions.NonIntegrable

/-!
# C111 for pairs with infinite divergence
-/

set_option linter.unusedSectionVars false
set_option autoImplicit false

namespace Verif
namespace MetricCompute

open MeasureTheory Set MCInt Filter Topology ProbabilityTheory

variable {d : ℕ}

theorem kl_term_ge {p q : ℝ} (hp : 0 < p) (hq : 0 < q) : -q ≤ p * Real.log (p / q) := by
  have h := Real.one_sub_inv_le_log_of_pos (div_pos hp hq)
  have h2 := mul_le_mul_of_nonneg_left h hp.le
  have h3 : p * (1 - (p / q)⁻¹) = p - q := by field_simp
  linarith

theorem volume_box_lt_top (a b : Fin d → ℝ) : volume (box a b) < ⊤ := by
  unfold box
  rw [Real.volume_pi_Ico]
  exact ENNReal.prod_lt_top fun _ _ => ENNReal.ofReal_lt_top

/-- The integrals of the truncations grow without bound if the function itself is not integrable. -/
theorem truncated_unbounded {α : Type*} [MeasurableSpace α] {μ : Measure α} [IsFiniteMeasure μ] {g q : α → ℝ} (hg : Measurable g)
    (hq : Integrable q μ) (hq0 : ∀ᵐ x ∂μ, 0 ≤ q x) (hge : ∀ᵐ x ∂μ, -q x ≤ g x) (hn : ¬ Integrable g μ) :
    (∀ M : ℕ, Integrable (fun x => min (g x) M) μ) ∧ ∀ C : ℝ, ∃ M : ℕ, C ≤ ∫ x, min (g x) M ∂μ := by
  have hint : ∀ M : ℕ, Integrable (fun x => min (g x) M) μ := by
    intro M
    refine Integrable.mono' (hq.add (integrable_const (M : ℝ))) (hg.min measurable_const).aestronglyMeasurable ?_
    filter_upwards [hq0, hge] with x h0 h1
    have hM : (0:ℝ) ≤ M := Nat.cast_nonneg M
    rw [Real.norm_eq_abs, abs_le]
    simp only [Pi.add_apply]
    refine ⟨le_min (by linarith) (by linarith), (min_le_right _ _).trans (by linarith)⟩
  refine ⟨hint, fun C => ?_⟩
  by_contra hC
  push Not at hC
  apply hn
  have hadd : Integrable (fun x => g x + q x) μ := by
    refine ⟨hg.aestronglyMeasurable.add hq.aestronglyMeasurable, ?_⟩
    have hle : ∀ M : ℕ, ∫⁻ x, ENNReal.ofReal (min (g x) M + q x) ∂μ ≤ ENNReal.ofReal (C + ∫ x, q x ∂μ) := by
      intro M
      rw [← ofReal_integral_eq_lintegral_ofReal (f := fun x => min (g x) M + q x) ((hint M).add hq)]
      · refine ENNReal.ofReal_le_ofReal ?_
        rw [integral_add (hint M) hq]
        linarith [hC M]
      · filter_upwards [hq0, hge] with x h0 h1
        have hM : (0:ℝ) ≤ M := Nat.cast_nonneg M
        have : -q x ≤ min (g x) M := le_min h1 (by linarith)
        simp only [Pi.zero_apply]
        linarith
    have hlim : Tendsto (fun M : ℕ => ∫⁻ x, ENNReal.ofReal (min (g x) M + q x) ∂μ) atTop
        (𝓝 (∫⁻ x, ENNReal.ofReal (g x + q x) ∂μ)) := by
      refine lintegral_tendsto_of_tendsto_of_monotone
        (fun M => (((hg.min measurable_const).aemeasurable).add hq.aemeasurable).ennreal_ofReal) ?_ ?_
      · refine Eventually.of_forall fun x M N h => ENNReal.ofReal_le_ofReal ?_
        have : (M : ℝ) ≤ N := by exact_mod_cast h
        gcongr
      · refine Eventually.of_forall fun x => tendsto_const_nhds.congr' ?_
        obtain ⟨N, hN⟩ := exists_nat_ge (g x)
        filter_upwards [eventually_ge_atTop N] with M hM
        rw [min_eq_left (hN.trans (by exact_mod_cast hM))]
    have hfin := le_of_tendsto' hlim hle
    rw [hasFiniteIntegral_iff_ofReal]
    · exact hfin.trans_lt ENNReal.ofReal_lt_top
    · filter_upwards [hge] with x h
      simp only [Pi.zero_apply]
      linarith
  refine (hadd.sub hq).congr (Eventually.of_forall fun x => ?_)
  simp

theorem list_sum_le {L : List (ℝ × ℝ)} {f g : ℝ × ℝ → ℝ} (h : ∀ x, f x ≤ g x) : (L.map f).sum ≤ (L.map g).sum :=
  List.sum_le_sum fun x _ => h x

/-- **C111** The limit of the KL metric when the divergence integral on the common region does not exist: the values grow
beyond every bound. -/
theorem C111_partial_diverges (a b : Fin d → ℝ) (hab : ∀ k, a k < b k) (p q : (Fin d → ℝ) → ℝ)
    (hp : Measurable p) (hq : Measurable q) (hpi : IntegrableOn p (box a b)) (hqi : IntegrableOn q (box a b))
    (hv : volume (region a b p q) ≠ 0)
    (hl : ¬ IntegrableOn (fun x => p x * Real.log (p x / q x)) (region a b p q)) :
    ∀ᵐ ω ∂(uniformStream d), ∃ v : ℕ → ℝ,
      (∀ n, 0 < n → kl (fun x => XF.log (.fin (p x))) (fun x => XF.log (.fin (q x))) a b ω n = .ok (.fin (v n))) ∧
      Tendsto v atTop atTop := by
  have hA := measurableSet_region (a := a) (b := b) hp hq
  have hsub : region a b p q ⊆ box a b := fun x hx => hx.1
  have hpA := hpi.mono_set hsub
  have hqA := hqi.mono_set hsub
  have hP := region_int_pos hp hq hv p (fun x hx => hx.2.1) hpA
  have hQ := region_int_pos hp hq hv q (fun x hx => hx.2.2) hqA
  have hV := vol_pos hab
  have hfm : IsFiniteMeasure (volume.restrict (region a b p q)) :=
    ⟨by rw [Measure.restrict_apply_univ]; exact (measure_mono hsub).trans_lt (volume_box_lt_top a b)⟩
  have hgm : Measurable fun x => p x * Real.log (p x / q x) := by fun_prop
  obtain ⟨hint, hunb⟩ := truncated_unbounded (μ := volume.restrict (region a b p q)) hgm hqA
    ((ae_restrict_iff' hA).2 (Eventually.of_forall fun x hx => hx.2.2.le))
    ((ae_restrict_iff' hA).2 (Eventually.of_forall fun x hx => kl_term_ge hx.2.1 hx.2.2)) hl
  have htr : ∀ᵐ ω ∂(uniformStream d), ∀ M : ℕ,
      Tendsto (fun n : ℕ => ((common (vals p q a b ω n)).map fun x => min (x.1 * Real.log (x.1 / x.2)) M).sum / n) atTop
        (𝓝 ((∫ x in region a b p q, min (p x * Real.log (p x / q x)) M) / vol a b)) :=
    ae_all_iff.2 fun M => avg_common hab hp hq (fun x => min (x.1 * Real.log (x.1 / x.2)) M) (by fun_prop) (hint M)
  filter_upwards [avg_common hab hp hq Prod.fst measurable_fst hpA, avg_common hab hp hq Prod.snd measurable_snd hqA,
    htr] with ω h1 h2 h3
  refine ⟨fun n => KL.real (common (vals p q a b ω n)), fun n hn => kl_val p q a b ω n hn, ?_⟩
  have hg : Tendsto (fun n : ℕ => ((common (vals p q a b ω n)).map fun x => x.1 * Real.log (x.1 / x.2)).sum / n) atTop atTop := by
    refine tendsto_atTop.2 fun C => ?_
    obtain ⟨M, hM⟩ := hunb ((C + 1) * vol a b)
    have hlt : C < (∫ x in region a b p q, min (p x * Real.log (p x / q x)) M) / vol a b := by
      rw [lt_div_iff₀ hV]
      nlinarith
    filter_upwards [(h3 M).eventually (lt_mem_nhds hlt)] with n hn
    refine hn.le.trans (div_le_div_of_nonneg_right ?_ (Nat.cast_nonneg n))
    exact list_sum_le fun x => min_le_left _ _
  have hlog := (h1.div h2 (div_pos hQ hV).ne').log (div_pos (div_pos hP hV) (div_pos hQ hV)).ne'
  have hlim := tendsto_atTop_add_right_of_le' atTop
    (-(Real.log ((∫ x in region a b p q, p x) / vol a b / ((∫ x in region a b p q, q x) / vol a b)) + 1))
    (hg.atTop_mul_pos (inv_pos.2 (div_pos hP hV)) (h1.inv₀ (div_pos hP hV).ne'))
    (g := fun n : ℕ => -Real.log ((((common (vals p q a b ω n)).map Prod.fst).sum / n) /
      (((common (vals p q a b ω n)).map Prod.snd).sum / n))) (by
      filter_upwards [hlog.eventually (gt_mem_nhds (lt_add_one _))] with n hn
      simp only [Pi.div_apply] at hn
      linarith)
  refine hlim.congr' ?_
  filter_upwards [common_ne_nil (div_pos hP hV) h1] with n hn
  have hn0 : (n : ℝ) ≠ 0 := by exact_mod_cast hn.1.ne'
  rw [kl_real_eq (common_pos _) hn.2, div_div_div_cancel_right₀ hn0, ← div_eq_mul_inv, div_div_div_cancel_right₀ hn0]
  ring

/-- **C111**, infinite divergence: if `p` vanishes outside its support box, `p` and `q` are positive at the same points up to
sets of volume 0, and the true divergence is infinite, the values of the metric are finite numbers that tend to infinity. -/
theorem C111_partial_infinite (a b : Fin d → ℝ) (hab : ∀ k, a k < b k) (p q : (Fin d → ℝ) → ℝ)
    (hp : Density p) (hq : Density q) (hbox : ∀ᵐ x, x ∉ box a b → p x = 0) (hsup : ∀ᵐ x, 0 < p x ↔ 0 < q x)
    (hinf : InformationTheory.klDiv (lawOf p) (lawOf q) = ⊤) :
    ∀ᵐ ω ∂(uniformStream d), ∃ v : ℕ → ℝ,
      (∀ n, 0 < n → kl (fun x => XF.log (.fin (p x))) (fun x => XF.log (.fin (q x))) a b ω n = .ok (.fin (v n))) ∧
      Tendsto v atTop atTop := by
  obtain ⟨h0, hv, e1, e2⟩ := same_support hp hq hbox hsup
  refine C111_partial_diverges a b hab p q hp.meas hq.meas hp.int.integrableOn hq.int.integrableOn hv fun hi => ?_
  obtain ⟨hac, hllr⟩ := llr_lawOf hp.meas hq.meas hp.nonneg hq.nonneg (hsup.mono fun x h => h.1)
  refine InformationTheory.klDiv_ne_top_iff.2 ⟨hac, ?_⟩ hinf
  have hfull : Integrable fun x => p x * Real.log (p x / q x) := by
    rw [← integrable_indicator_iff (measurableSet_region hp.meas hq.meas)] at hi
    refine hi.congr ?_
    filter_upwards [h0] with x hx
    by_cases h : x ∈ region a b p q
    · rw [indicator_of_mem h]
    · rw [indicator_of_notMem h, (hx h).1, zero_mul]
  have e : lawOf p = volume.withDensity fun x => ((p x).toNNReal : ENNReal) := rfl
  refine Integrable.congr ?_ hllr.symm
  rw [e, integrable_withDensity_iff_integrable_smul hp.meas.real_toNNReal]
  refine hfull.congr (Eventually.of_forall fun x => ?_)
  simp [NNReal.smul_def, Real.coe_toNNReal _ (hp.nonneg x)]

/-! A pair of densities on `[0,1)` of infinite divergence: the constant 1 and a multiple of `exp(-1/x)`. -/

/-- The unit interval. -/
def unit1 : Set (Fin 1 → ℝ) := box (fun _ => 0) fun _ => 1

/-- The uniform density. -/
noncomputable def flat : (Fin 1 → ℝ) → ℝ := unit1.indicator fun _ => 1

/-- `exp(-1/x)` on the unit interval, not normalised. -/
noncomputable def steep : (Fin 1 → ℝ) → ℝ := unit1.indicator fun x => Real.exp (-(x 0)⁻¹)

theorem unit1_eq : unit1 = (MeasurableEquiv.funUnique (Fin 1) ℝ) ⁻¹' Ico 0 1 := by
  ext x
  simp [unit1, box, Set.mem_pi, MeasurableEquiv.funUnique]

theorem not_integrable_inv : ¬ IntegrableOn (fun x : Fin 1 → ℝ => (x 0)⁻¹) unit1 := by
  rw [unit1_eq]
  intro h
  have h2 : IntegrableOn (fun y : ℝ => y⁻¹) (Ico 0 1) := by
    rw [← (volume_preserving_funUnique (Fin 1) ℝ).integrableOn_comp_preimage
      (MeasurableEquiv.measurableEmbedding _)]
    refine h.congr_fun (fun x _ => ?_) ((MeasurableEquiv.measurable _) measurableSet_Ico)
    simp [MeasurableEquiv.funUnique]
  have h3 : IntervalIntegrable (fun y : ℝ => y⁻¹) volume 0 1 := by
    rw [intervalIntegrable_iff_integrableOn_Ico_of_le zero_le_one]
    exact h2
  rw [intervalIntegrable_inv_iff] at h3
  simp at h3

theorem volume_unit1 : volume unit1 = 1 := by
  unfold unit1 box
  rw [Real.volume_pi_Ico]
  simp

theorem flat_density : Density flat := by
  have hm : MeasurableSet unit1 := measurableSet_box _ _
  refine ⟨measurable_const.indicator hm, fun x => indicator_nonneg (fun _ _ => zero_le_one) x, ?_, ?_⟩
  · exact (integrable_indicator_iff hm).2 (integrableOn_const (by rw [volume_unit1]; exact ENNReal.one_ne_top))
  · unfold flat
    rw [integral_indicator hm]
    simp [Measure.real, volume_unit1]

theorem steep_meas : Measurable steep := by
  have : Measurable fun x : Fin 1 → ℝ => x 0 := measurable_pi_apply 0
  exact (by fun_prop : Measurable fun x : Fin 1 → ℝ => Real.exp (-(x 0)⁻¹)).indicator (measurableSet_box _ _)

theorem steep_pos {x : Fin 1 → ℝ} : 0 < steep x ↔ x ∈ unit1 := by
  unfold steep
  by_cases h : x ∈ unit1
  · simp [h, Real.exp_pos]
  · simp [h]

theorem steep_nonneg (x : Fin 1 → ℝ) : 0 ≤ steep x := indicator_nonneg (fun _ _ => (Real.exp_pos _).le) x

theorem steep_int : Integrable steep := by
  refine Integrable.mono' flat_density.int steep_meas.aestronglyMeasurable (Eventually.of_forall fun x => ?_)
  rw [Real.norm_of_nonneg (steep_nonneg x)]
  unfold steep flat
  refine indicator_le_indicator' fun hx => ?_
  rw [Real.exp_le_one_iff]
  have : 0 ≤ x 0 := (hx 0 (mem_univ 0)).1
  simpa using this

theorem steep_total : 0 < ∫ x, steep x := by
  rw [integral_pos_iff_support_of_nonneg steep_nonneg steep_int]
  have : Function.support steep = unit1 := by
    ext x
    rw [Function.mem_support, ← steep_pos]
    exact ⟨fun h => lt_of_le_of_ne (steep_nonneg x) (Ne.symm h), fun h => h.ne'⟩
  rw [this, volume_unit1]
  exact one_pos

/-- The hypotheses of `C111_partial_infinite` can be met, and the metric of this pair tends to infinity. -/
example : ∃ q : (Fin 1 → ℝ) → ℝ, Density q ∧ InformationTheory.klDiv (lawOf flat) (lawOf q) = ⊤ ∧
    ∀ᵐ ω ∂(uniformStream 1), ∃ v : ℕ → ℝ,
      (∀ n, 0 < n → kl (fun x => XF.log (.fin (flat x))) (fun x => XF.log (.fin (q x))) (fun _ => 0) (fun _ => 1) ω n =
        .ok (.fin (v n))) ∧ Tendsto v atTop atTop := by
  have hZ := steep_total
  obtain ⟨Z, hZe⟩ : ∃ Z, Z = ∫ x, steep x := ⟨_, rfl⟩
  rw [← hZe] at hZ
  have hq : Density fun x => Z⁻¹ * steep x := by
    refine ⟨steep_meas.const_mul _, fun x => mul_nonneg (inv_pos.2 hZ).le (steep_nonneg x), steep_int.const_mul _, ?_⟩
    rw [integral_const_mul, ← hZe, inv_mul_cancel₀ hZ.ne']
  have hf : ∀ x, 0 < flat x ↔ x ∈ unit1 := fun x => by
    unfold flat
    by_cases h : x ∈ unit1 <;> simp [h]
  have hsup : ∀ x, 0 < flat x ↔ 0 < Z⁻¹ * steep x := fun x => by
    rw [hf, mul_pos_iff_of_pos_left (inv_pos.2 hZ), steep_pos]
  have hinf : InformationTheory.klDiv (lawOf flat) (lawOf fun x => Z⁻¹ * steep x) = ⊤ := by
    by_contra h
    have hi := (klDiv_lawOf flat_density hq (Eventually.of_forall fun x => (hsup x).1) h).1
    apply not_integrable_inv
    have hi2 := hi.integrableOn (s := unit1)
    have hc : IntegrableOn (fun _ : Fin 1 → ℝ => Real.log Z) unit1 :=
      integrableOn_const (by rw [volume_unit1]; exact ENNReal.one_ne_top)
    refine (hi2.sub hc).congr_fun (fun x hx => ?_) (measurableSet_box _ _)
    simp only [flat, steep, indicator_of_mem hx, Pi.sub_apply]
    rw [one_mul, one_div, Real.log_inv, Real.log_mul (inv_pos.2 hZ).ne' (Real.exp_pos _).ne', Real.log_exp, Real.log_inv]
    ring
  refine ⟨_, hq, hinf, C111_partial_infinite _ _ (fun _ => zero_lt_one) _ _ flat_density hq
    (Eventually.of_forall fun x hx => ?_) (Eventually.of_forall hsup) hinf⟩
  exact indicator_of_notMem hx _

end MetricCompute
end Verif
